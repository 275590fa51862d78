import Verif.Model.Multipart
/-!
# Map-reduce

Model of nlcodec/para/mapred.py and of `EncoderScheme.parallel_map` (nlcodec/codec.py:230-238).

The iterators of the reducer are lazy and nested, and a generator runs only as far as it is asked.  The model keeps the state of every
generator of the stack and pulls items through it on demand.  Merging changes dictionaries in place, so functions run on a state `σ`.
-/

namespace Verif

/-! ## pair_subsequent -/

/-- local variables `idx`, `last` of `pair_subsequent` (nlcodec/para/mapred.py:29-30) -/
structure PairSt (V : Type) where
  idx : Nat
  last : V

/-- one round of the loop (nlcodec/para/mapred.py:31-34): the new state and what is yielded -/
def PairSt.feed {V : Type} (st : PairSt V) (item : V) : PairSt V × Option (V × V) :=
  (⟨st.idx + 1, item⟩, if (st.idx + 1) % 2 = 0 then some (st.last, item) else none)

/-- exceptions of `pair_subsequent` -/
inductive PairExc (V : Type) where
  | assertion
  | singleton (item : V)
  deriving DecidableEq, Repr

/-- what happens when the stream ends -/
inductive PairEnd (V : Type) where
  | stop
  | last (p : V × V)
  | raise (e : PairExc V)

/-- after the loop (nlcodec/para/mapred.py:35-41) -/
def PairSt.finish {V : Type} (default : V) (throwSingleton : Bool) (st : PairSt V) : PairEnd V :=
  if throwSingleton && decide (¬ 0 < st.idx) then .raise .assertion
  else if throwSingleton && decide (st.idx = 1) then .raise (.singleton st.last)
  else if st.idx % 2 = 1 then .last (st.last, default)
  else .stop

/-- the loop over a stream given as a list: pairs yielded, and the exception at the end -/
def pairLoop {V : Type} (default : V) (throwSingleton : Bool) : PairSt V → List V → List (V × V) × Option (PairExc V)
  | st, [] => match st.finish default throwSingleton with
    | .stop => ([], none)
    | .last p => ([p], none)
    | .raise e => ([], some e)
  | st, x :: xs =>
    let r := pairLoop default throwSingleton (st.feed x).1 xs
    ((st.feed x).2.toList ++ r.1, r.2)

/-- `pair_subsequent(iterator, default, throw_singleton)` (nlcodec/para/mapred.py:22-41); `none_` is Python's None -/
def pairSubsequent {V : Type} (none_ default : V) (throwSingleton : Bool) (l : List V) : List (V × V) × Option (PairExc V) :=
  pairLoop default throwSingleton ⟨0, none_⟩ l

/-! ## IterativeReducer -/

/-- one level of the reducer: the iterator `chain([item], pool(dispatcher, pair_subsequent(...)))`
(nlcodec/para/mapred.py:58-64): the item of the chain if it was not taken yet, the state of the pair generator, and whether that
generator has passed its last yield -/
structure Level (V : Type) where
  chain : Option V
  st : PairSt V
  fin : Bool

/-- what asking for the next item gives: an item, the end of the stream, an exception (`none` is lack of fuel) -/
inductive Pulled (σ V β : Type) where
  | item (v : V) (ls : List (Level V)) (bs : List β) (s : σ)
  | stop (ls : List (Level V)) (bs : List β) (s : σ)
  | raise (e : Option (PairExc V)) (s : σ)

section
variable {σ V β : Type}

/-- run `map(dispatcher, pair_subsequent(source, default, throw_singleton=True))` to its next item (nlcodec/para/mapred.py:31-41, 52-54,
59-61); `src` asks the source for an item -/
def pairNext (f : σ → V → V → σ × V) (dflt : V) (src : List (Level V) → List β → σ → Pulled σ V β) :
    Nat → PairSt V → List (Level V) → List β → σ → Pulled σ V β
  | 0, _, _, _, s => .raise none s
  | k + 1, st, ls, bs, s => match src ls bs s with
    | .raise e s1 => .raise e s1
    | .item v ls1 bs1 s1 => match (st.feed v).2 with
      | some p => .item (f s1 p.1 p.2).2 (⟨none, (st.feed v).1, false⟩ :: ls1) bs1 (f s1 p.1 p.2).1
      | none => pairNext f dflt src k (st.feed v).1 ls1 bs1 s1
    | .stop ls1 bs1 s1 => match st.finish dflt true with
      | .stop => .stop (⟨none, st, true⟩ :: ls1) bs1 s1
      | .last p => .item (f s1 p.1 p.2).2 (⟨none, st, true⟩ :: ls1) bs1 (f s1 p.1 p.2).1
      | .raise e => .raise (some e) s1

/-- ask the iterator on top of a stack of levels over the lazily mapped input (`map_pool(mapper, input)`,
nlcodec/para/mapred.py:84) for its next item.  The pool is an ordered lazy map, as the builtin `map` is. -/
def pull (f : σ → V → V → σ × V) (g : σ → β → σ × V) (dflt : V) : Nat → List (Level V) → List β → σ → Pulled σ V β
  | _, [], [], s => .stop [] [] s
  | _, [], b :: bs, s => .item (g s b).2 [] bs (g s b).1
  | 0, _ :: _, _, s => .raise none s
  | n + 1, l :: ls, bs, s => match l.chain with
    | some v => .item v (⟨none, l.st, l.fin⟩ :: ls) bs s
    | none => if l.fin then .stop (l :: ls) bs s else pairNext f dflt (pull f g dflt n) 3 l.st ls bs s

/-- the loop of `IterativeReducer.__call__` (nlcodec/para/mapred.py:56-68): a new level is put on top, one item is asked of it and
chained in front -/
def reduceLoop (none_ : V) (f : σ → V → V → σ × V) (g : σ → β → σ × V) (dflt : V) : Nat → List (Level V) → List β → σ → σ × Py V
  | 0, _, _, s => (s, .error .fuel)
  | k + 1, ls, bs, s => match pull f g dflt (ls.length + 1) (⟨none, ⟨0, none_⟩, false⟩ :: ls) bs s with
    | .item v (l :: ls1) bs1 s1 => reduceLoop none_ f g dflt k (⟨some v, l.st, l.fin⟩ :: ls1) bs1 s1
    | .item _ [] _ s1 => (s1, .error .fuel)
    | .stop _ _ s1 => (s1, .error .stopIteration)
    | .raise (some (.singleton v)) s1 => (s1, .ok v)
    | .raise (some .assertion) s1 => (s1, .error .assertion)
    | .raise none s1 => (s1, .error .fuel)

/-- `MapReduce.__call__` (nlcodec/para/mapred.py:83-87) -/
def mapReduce (none_ : V) (g : σ → β → σ × V) (f : σ → V → V → σ × V) (dflt : V) (input : List β) (s : σ) : σ × Py V :=
  reduceLoop none_ f g dflt (input.length + 1) [] input s

end

/-- `ireduce(reduce_func, default, data)` (nlcodec/para/mapred.py:71-73) for a function without effects -/
def ireduce {V : Type} (none_ : V) (f : V → V → V) (dflt : V) (l : List V) : Py V :=
  (mapReduce none_ (fun (_ : Unit) b => ((), b)) (fun _ a b => ((), f a b)) dflt l ()).2

/-! ## Word counts -/

/-- `word_count_line(text)` (nlcodec/para/mapred.py:111-113) -/
def wordCountLine (text : Str) : Dict Str Int := Dict.count [] (split text)

/-- the loop of `merge_freqs` (nlcodec/para/mapred.py:126-127) -/
def mergeInto (keep dump : Dict Str Int) : Dict Str Int := dump.foldl (fun d kv => Dict.set d kv.1 ((Dict.get? d kv.1).getD 0 + kv.2)) keep

/-- `merge_freqs(tfs1, tfs2)` (nlcodec/para/mapred.py:116-128) on copies, as when arguments come from another process -/
def mergeFreqs (tfs1 tfs2 : Dict Str Int) : Dict Str Int :=
  if tfs1.length < tfs2.length then mergeInto tfs2 tfs1 else mergeInto tfs1 tfs2

/-- dictionaries in memory, by address -/
abbrev Heap := List (Dict Str Int)

/-- `merge_freqs(tfs1, tfs2)` (nlcodec/para/mapred.py:116-128) on references: the kept dictionary is changed in place and returned -/
def mergeFreqsAt (h : Heap) (r1 r2 : Nat) : Heap × Nat :=
  if (h.getD r1 []).length < (h.getD r2 []).length then (h.set r2 (mergeInto (h.getD r2 []) (h.getD r1 [])), r2)
  else (h.set r1 (mergeInto (h.getD r1 []) (h.getD r2 [])), r1)

/-- `word_count_line` allocates a new counter -/
def wordCountAt (h : Heap) (text : Str) : Heap × Nat := (h ++ [wordCountLine text], h.length)

/-- `WordCounter()(lines, map, map)` (nlcodec/para/mapred.py:83-87, 131-132) in one process; the default dictionary is at `dflt`, and
`none_` is an address that is never read -/
def wordCounter (none_ dflt : Nat) (h : Heap) (lines : List Str) : Heap × Py Nat := mapReduce none_ wordCountAt mergeFreqsAt dflt lines h

/-- `WordCounter().multiprocess(lines)` (nlcodec/para/mapred.py:89-108): dictionaries are copied between processes, and `imap`
yields results in order (see `imap`) -/
def wordCounterProc (lines : List Str) : Py (Dict Str Int) :=
  (mapReduce [] (fun (_ : Unit) b => ((), wordCountLine b)) (fun _ a b => ((), mergeFreqs a b)) [] lines ()).2

/-! ## Parallel map -/

/-- state of `multiprocessing.pool.IMapIterator` (CPython, `_set` and `next`): results ready in order, results that came early, index
of the next result -/
structure IMap (ρ : Type) where
  items : List ρ
  early : Dict Nat ρ
  index : Nat

/-- `while self._index in self._unsorted` of `IMapIterator._set` -/
def IMap.drain {ρ : Type} : Nat → IMap ρ → IMap ρ
  | 0, st => st
  | k + 1, st => match Dict.get? st.early st.index with
    | some r => IMap.drain k ⟨st.items ++ [r], Dict.erase st.early st.index, st.index + 1⟩
    | none => st

/-- `IMapIterator._set(i, obj)`: result `i` has arrived -/
def IMap.put {ρ : Type} (st : IMap ρ) (i : Nat) (r : ρ) : IMap ρ :=
  if st.index = i then IMap.drain st.early.length ⟨st.items ++ [r], st.early, st.index + 1⟩ else ⟨st.items, Dict.set st.early i r, st.index⟩

/-- results of the chunks: `mapstar` on each; an exception in a chunk is the result of the whole chunk -/
def mapChunk {α β : Type} (f : α → Py β) : List α → Py (List β)
  | [] => .ok []
  | a :: as => match f a with
    | .error e => .error e
    | .ok b => match mapChunk f as with
      | .error e => .error e
      | .ok bs => .ok (b :: bs)

/-- the generator that `imap` returns: items of the results in order, up to the first exception -/
def imapOut {β : Type} : List (Py (List β)) → Gen β
  | [] => ⟨[], none⟩
  | .ok bs :: rs => ⟨bs ++ (imapOut rs).out, (imapOut rs).exc⟩
  | .error e :: _ => ⟨[], some e⟩

/-- `EncoderScheme.parallel_map(mapper, collection, n_cpus, chunksize=chunksize)` (nlcodec/codec.py:233-238); `done` is the order in which
the chunks are finished (`Pool.imap` cuts the input as `islice` does). -/
def parallelMap {α β : Type} (mapper : α → Py β) (collection : List α) (nCpus : Int) (chunksize : Int)
    (done : List (Nat × Py (List β)) → List (Nat × Py (List β))) : Gen β :=
  if ¬ 1 < nCpus then ⟨[], some .assertion⟩
  else if chunksize < 1 then ⟨[], some .value⟩
  else match slices chunksize collection with
    | .error e => ⟨[], some e⟩
    | .ok cs =>
      let results := (List.range cs.length).zip (cs.map (mapChunk mapper))
      imapOut ((done results).foldl (fun (st : IMap (Py (List β))) r => st.put r.1 r.2) ⟨[], [], 0⟩).items

end Verif
