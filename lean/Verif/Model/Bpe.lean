import Verif.Model.Heapq
import Verif.Model.Learn
/-!
# BPE learning

Model of `LnNode` (nlcodec/dstruct.py:10-60), `MaxHeap` (118-144) and `BPELearn` (nlcodec/bpe.py:22-327).

Objects of class `LnNode` live in a memory `Nat → Node`; a reference is an address.  `LnNode.__hash__` is `id(self)`, so sets
of nodes are sets of addresses, here lists without repetition.  The order in which Python iterates over such a set is a
parameter (`ord`).  Logging and timing are left out.
-/

namespace Verif

/-- a bigram of codes (nlcodec/bpe.py:19) -/
abbrev Pair := Nat × Nat

/-- `LnNode` (nlcodec/dstruct.py:10-19); the unused field `data` is left out. -/
structure Node where
  val : Nat
  left : Option Nat
  right : Option Nat
  freq : Int
  deriving DecidableEq, Repr

/-- the memory: what each address holds -/
abbrev Mem := Nat → Node

/-- assignment to the object at address `k` -/
def Mem.upd (m : Mem) (k : Nat) (n : Node) : Mem := fun j => if j = k then n else m j

/-- `LnNode.from_seq(seq, freq)` (nlcodec/dstruct.py:46-60): the nodes get the addresses `next, next + 1, ...`. -/
def fromSeq (m : Mem) (next : Nat) (seq : List Nat) (freq : Int) : Mem := fun k =>
  if next ≤ k then
    match seq[k - next]? with
    | some v => { val := v, left := if k = next then none else some (k - 1),
                  right := if k + 1 < next + seq.length then some (k + 1) else none, freq := freq }
    | none => m k
  else m k

/-- `LnNode.is_unlinked` (nlcodec/dstruct.py:42-44) -/
def Node.isUnlinked (n : Node) : Bool := n.right.isNone && n.left.isNone

/-- `if x: x.right = y` (nlcodec/dstruct.py:35-36) -/
def setRight (m : Mem) (x y : Option Nat) : Mem :=
  match x with
  | none => m
  | some i => m.upd i { m i with right := y }

/-- `if y: y.left = x` (nlcodec/dstruct.py:37-38) -/
def setLeft (m : Mem) (y x : Option Nat) : Mem :=
  match y with
  | none => m
  | some i => m.upd i { m i with left := x }

/-- `LnNode.delete(unlink=True)` (nlcodec/dstruct.py:29-40) of the node at `k` -/
def deleteNode (m : Mem) (k : Nat) : Mem :=
  let x := (m k).left
  let y := (m k).right
  let m1 := setRight m x y
  let m2 := setLeft m1 y x
  m2.upd k { m2 k with left := none, right := none }

/-! ## MaxHeap -/

/-- entry of the heap: `(-val, node)` (nlcodec/dstruct.py:122) -/
abbrev HItem := Int × Pair

/-- `<` of the tuples `(-val, (a, b))` -/
def HItem.lt (x y : HItem) : Bool :=
  decide (x.1 < y.1) || (decide (x.1 = y.1) && (decide (x.2.1 < y.2.1) || (decide (x.2.1 = y.2.1) && decide (x.2.2 < y.2.2))))

/-- `MaxHeap(items)` (nlcodec/dstruct.py:121-123): the list `min_heap`, heapified -/
def heapInit (items : Dict Pair Int) : List HItem := Heapq.heapify HItem.lt (items.map fun p => (-p.2, p.1))

/-- `MaxHeap.push` (nlcodec/dstruct.py:125-132) -/
def heapPush (h : List HItem) (p : Pair) (val : Int) : List HItem := Heapq.heappush HItem.lt h (-val, p)

/-- `MaxHeap.pop` (nlcodec/dstruct.py:134-137): IndexError on an empty heap -/
def heapPop (h : List HItem) : Py ((Pair × Int) × List HItem) :=
  match Heapq.heappop HItem.lt h with
  | .error e => .error e
  | .ok (m, h') => .ok ((m.2, -m.1), h')

/-- `MaxHeap.peek` (nlcodec/dstruct.py:139-141): IndexError on an empty heap -/
def heapPeek (h : List HItem) : Py (Pair × Int) :=
  match h[0]? with
  | none => .error .index
  | some m => .ok (m.2, -m.1)

/-! ## Index -/

/-- attributes of `BPELearn` (nlcodec/bpe.py:38-42), the memory and the next free address -/
structure Index where
  mem : Mem
  next : Nat
  bi : Dict Pair Int
  ix : Dict Pair (List Nat)
  uni : Dict Nat Int

/-- loop over the positions of a sequence (nlcodec/bpe.py:67-73); `n` is the address of the first node of `seq` -/
def indexSeq (freq : Int) : Nat → List Nat → Index → Py Index
  | n, a :: b :: rest, I =>
    let ids := (Dict.get? I.ix (a, b)).getD []
    if n ∈ ids then .error .assertion
    else indexSeq freq (n + 1) (b :: rest) { I with bi := Dict.incr I.bi (a, b) freq, ix := Dict.set I.ix (a, b) (ids ++ [n]),
                                                    uni := Dict.incr I.uni a freq }
  | _, [a], I => .ok { I with uni := Dict.incr I.uni a freq }
  | _, [], I => .ok I

/-- `create_index` (nlcodec/bpe.py:47-76) from the state `I`; `first` says that the next sequence is the first one
(`seq[0]` raises IndexError when that one is empty; other empty sequences are skipped).  Every sequence comes with its
frequency. -/
def createIndex : Bool → List (List Nat × Int) → Index → Py Index
  | _, [], I => .ok I
  | first, (seq, freq) :: rest, I =>
    if seq = [] then (if first then .error .index else createIndex false rest I)
    else
      match indexSeq freq I.next seq { I with mem := fromSeq I.mem I.next seq freq, next := I.next + seq.length } with
      | .error e => .error e
      | .ok I' => createIndex false rest I'

/-- `max(...)` of naturals; ValueError when empty -/
def pyMax : List Nat → Py Nat
  | [] => .error .value
  | x :: xs => .ok (xs.foldl max x)

/-- loop of `validate_index` over the bigrams (nlcodec/bpe.py:96-109) -/
def validateBi (I : Index) : List (Pair × Int) → Py Unit
  | [] => .ok ()
  | (p, freq) :: rest =>
    if freq < 0 then .error .value
    else match Dict.get? I.ix p with
      | none => .error .value
      | some ids =>
        if freq ≠ isum (ids.map fun n => (I.mem n).freq) then .error .value
        else if (Dict.get? I.uni p.1).getD 0 < freq then .error .value
        else if (Dict.get? I.uni p.2).getD 0 < freq then .error .value
        else validateBi I rest

/-- `validate_index` (nlcodec/bpe.py:82-113) -/
def validateIndex (I : Index) (vocab : List Ty) : Py Unit :=
  match pyMax (Dict.keys I.uni) with
  | .error e => .error e
  | .ok maxCode => match pyMax (vocab.map (·.idx)) with
    | .error e => .error e
    | .ok maxIdx =>
      if ¬ (maxCode < vocab.length ∧ maxCode ≤ maxIdx) then .error .value
      else if I.bi.length ≠ I.ix.length then .error .value
      else match validateBi I I.bi with
        | .error e => .error e
        | .ok () => if (Dict.values I.uni).all fun f => decide (0 ≤ f) then .ok () else .error .value

/-- `i == v.idx` for all entries (nlcodec/bpe.py:35-36) -/
def checkIdx : Nat → List Ty → Py Unit
  | _, [] => .ok ()
  | i, t :: ts => if i = t.idx then checkIdx (i + 1) ts else .error .assertion

/-- `BPELearn.__init__` (nlcodec/bpe.py:32-45) -/
def bpeInit (seqs : List (List Nat × Int)) (vocab : List Ty) : Py Index :=
  if (vocab.map (·.idx)).dedup.length ≠ (vocab.map (·.name)).dedup.length then .error .assertion
  else match checkIdx 0 vocab with
    | .error e => .error e
    | .ok () =>
      match createIndex true seqs { mem := fun _ => ⟨0, none, none, 0⟩, next := 0, bi := [], ix := [], uni := [] } with
      | .error e => .error e
      | .ok I => match validateIndex I vocab with
        | .error e => .error e
        | .ok () => .ok I

/-! ## Merging -/

/-- what the loop over the nodes of a pair changes (nlcodec/bpe.py:163-217) -/
structure Pass where
  mem : Mem
  ix : Dict Pair (List Nat)
  uni : Dict Nat Int
  deltas : Dict Pair Int

/-- `if bi_ixs.get(p): bi_ixs[p].remove(n)` (nlcodec/bpe.py:201-203, 211-213); `set.remove` raises KeyError -/
def ixRemove (ix : Dict Pair (List Nat)) (p : Pair) (n : Nat) : Py (Dict Pair (List Nat)) :=
  match Dict.get? ix p with
  | none => .ok ix
  | some [] => .ok ix
  | some ids => if n ∈ ids then .ok (Dict.set ix p (ids.erase n)) else .error .key

/-- `bi_ixs[p].add(n)` (nlcodec/bpe.py:207, 217) -/
def ixAdd (ix : Dict Pair (List Nat)) (p : Pair) (n : Nat) : Dict Pair (List Nat) :=
  let ids := (Dict.get? ix p).getD []
  Dict.set ix p (if n ∈ ids then ids else ids ++ [n])

/-- updates for the left neighbour (nlcodec/bpe.py:198-207); `m` is the memory after the change of the nodes -/
def passLeft (a R : Nat) (m : Mem) (x : Option Nat) (ix : Dict Pair (List Nat)) (ds : Dict Pair Int) :
    Py (Dict Pair (List Nat) × Dict Pair Int) :=
  match x with
  | none => .ok (ix, ds)
  | some x =>
    match ixRemove ix ((m x).val, a) x with
    | .error e => .error e
    | .ok ix1 => .ok (ixAdd ix1 ((m x).val, R) x,
        Dict.incr (Dict.incr ds ((m x).val, a) (-(m x).freq)) ((m x).val, R) (m x).freq)

/-- updates for the right neighbour (nlcodec/bpe.py:208-217); `n` is the new node, `bn` the deleted one -/
def passRight (b R : Nat) (m : Mem) (n bn : Nat) (y : Option Nat) (ix : Dict Pair (List Nat)) (ds : Dict Pair Int) :
    Py (Dict Pair (List Nat) × Dict Pair Int) :=
  match y with
  | none => .ok (ix, ds)
  | some y =>
    match ixRemove ix (b, (m y).val) bn with
    | .error e => .error e
    | .ok ix1 => .ok (ixAdd ix1 (R, (m y).val) n,
        Dict.incr (Dict.incr ds (b, (m y).val) (-(m bn).freq)) (R, (m y).val) (m bn).freq)

/-- body of the loop over `update_nodes` (nlcodec/bpe.py:169-217) for the node at `n` -/
def passNode (a b R : Nat) (P : Pass) (n : Nat) : Py Pass :=
  let nd := P.mem n
  let skip : Pass := { P with uni := Dict.incr (Dict.incr (Dict.incr P.uni a nd.freq) b nd.freq) R (-nd.freq) }
  if nd.isUnlinked then .ok skip
  else match nd.right with
    | none => .error .attr
    | some bn =>
      if a = b ∧ (R = nd.val ∨ R = (P.mem bn).val) then .ok skip
      else
        let y := (P.mem bn).right
        if nd.val ≠ a ∨ (P.mem bn).val ≠ b then .error .assertion
        else if nd.freq ≠ (P.mem bn).freq then .error .assertion
        else
          let m1 := deleteNode P.mem bn
          let m2 := m1.upd n { m1 n with val := R }
          match passLeft a R m2 nd.left P.ix P.deltas with
          | .error e => .error e
          | .ok (ix1, ds1) => match passRight b R m2 n bn y ix1 ds1 with
            | .error e => .error e
            | .ok (ix2, ds2) => .ok { mem := m2, ix := ix2, uni := P.uni, deltas := ds2 }

/-- the loop over `update_nodes` (nlcodec/bpe.py:169-217) -/
def passLoop (a b R : Nat) : List Nat → Pass → Py Pass
  | [], P => .ok P
  | n :: ns, P => match passNode a b R P n with
    | .error e => .error e
    | .ok P' => passLoop a b R ns P'

/-- the loop over `heap_deltas` (nlcodec/bpe.py:223-229) -/
def applyDeltas (R : Nat) : List (Pair × Int) → List HItem → Dict Pair Int → Py (List HItem × Dict Pair Int)
  | [], h, d => .ok (h, d)
  | (p, delta) :: rest, h, d =>
    if 0 < delta then
      if R = p.1 ∨ R = p.2 then applyDeltas R rest (heapPush h p delta) d else .error .assertion
    else if delta < 0 then
      if R = p.1 ∨ R = p.2 then .error .assertion else applyDeltas R rest h (Dict.incr d p delta)
    else applyDeltas R rest h d

/-- the popping loop (nlcodec/bpe.py:134-142): the next clean maximum.  Each round removes one entry of `dirty`, so the
fuel `dirty.length + 1` suffices (proved). -/
def popClean : Nat → List HItem → Dict Pair Int → Py ((Pair × Int) × List HItem × Dict Pair Int)
  | 0, _, _ => .error .fuel
  | fuel + 1, h, d =>
    match heapPop h with
    | .error e => .error e
    | .ok ((p, f), h1) =>
      match Dict.get? d p with
      | none => .ok ((p, f), h1, d)
      | some upd =>
        if ¬ upd < 0 then .error .assertion
        else if ¬ 0 ≤ f + upd then .error .assertion
        else popClean fuel (if 0 < f + upd then heapPush h1 p (f + upd) else h1) (Dict.erase d p)

/-- state of `learn_codes` (nlcodec/bpe.py:126-129) -/
structure LState where
  mem : Mem
  ix : Dict Pair (List Nat)
  uni : Dict Nat Int
  vocab : List Ty
  heap : List HItem
  dirty : Dict Pair Int

/-- one round of `learn_codes` (nlcodec/bpe.py:133-229).  `ord` gives the iteration order of the set of nodes.
The flag tells whether the loop goes on (`false`: early stop at 148). -/
def learnStep (ord : List Nat → List Nat) (minEv level : Int) (S : LState) : Py (LState × Bool) :=
  match popClean (S.dirty.length + 1) S.heap S.dirty with
  | .error e => .error e
  | .ok (((a, b), f), heap1, dirty1) =>
    if f < minEv then .ok ({ S with heap := heap1, dirty := dirty1 }, false)
    else
      let R := S.vocab.length
      match S.vocab[a]?, S.vocab[b]? with
      | some ta, some tb =>
        let vocab1 := S.vocab ++ [{ name := ta.name ++ tb.name, level := level, idx := R, freq := f, kids := [ta, tb] }]
        let uni1 := Dict.incr (Dict.incr (Dict.set S.uni R f) a (-f)) b (-f)
        match Dict.get? S.ix (a, b) with
        | none => .error .key
        | some nodes =>
          match passLoop a b R (ord nodes) { mem := S.mem, ix := Dict.erase S.ix (a, b), uni := uni1, deltas := [] } with
          | .error e => .error e
          | .ok P =>
            if (Dict.get? P.uni a).getD 0 < 0 then .error .assertion
            else if (Dict.get? P.uni b).getD 0 < 0 then .error .assertion
            else match applyDeltas R P.deltas heap1 dirty1 with
              | .error e => .error e
              | .ok (heap2, dirty2) =>
                .ok ({ mem := P.mem, ix := P.ix, uni := P.uni, vocab := vocab1, heap := heap2, dirty := dirty2 }, true)
      | _, _ => .error .index

/-- `learn_codes` (nlcodec/bpe.py:115-231): `n` rounds; `ord` may differ from round to round (it gets the number of rounds
left). -/
def learnLoop (ord : Nat → List Nat → List Nat) (minEv level : Int) : Nat → LState → Py LState
  | 0, S => .ok S
  | n + 1, S => match learnStep (ord n) minEv level S with
    | .error e => .error e
    | .ok (S', true) => learnLoop ord minEv level n S'
    | .ok (S', false) => .ok S'

/-- `BPELearn(seqs, vocab).learn_codes(n, min_co_evidence, level)` (nlcodec/bpe.py:279-282): the final vocabulary -/
def learnCodes (ord : Nat → List Nat → List Nat) (seqs : List (List Nat × Int)) (vocab : List Ty) (n : Nat)
    (minEv level : Int) : Py (List Ty) :=
  match bpeInit seqs vocab with
  | .error e => .error e
  | .ok I =>
    match learnLoop ord minEv level n { mem := I.mem, ix := I.ix, uni := I.uni, vocab := vocab, heap := heapInit I.bi, dirty := [] } with
    | .error e => .error e
    | .ok S => .ok S.vocab

/-! ## From words -/

/-- `prepare_word` (nlcodec/bpe.py:233-239) -/
def prepareWord (w : Str) : Str := w ++ [SP]

/-- `_make_idxs` (nlcodec/bpe.py:241-251) for one word -/
def wordCodes (rev : Dict Str Nat) (unk : Nat) (w : Str) : List Nat :=
  match Dict.get? rev w with
  | some i => [i]
  | none => w.map fun c => (Dict.get? rev [c]).getD unk

/-- `{word.name: word.idx for word in vocab}` (nlcodec/bpe.py:273) -/
def revIdx (vocab : List Ty) : Dict Str Nat := vocab.foldl (fun d t => Dict.set d t.name t.idx) []

/-- `_learn_codes` (nlcodec/bpe.py:253-283) with `init_list=None` (no caller passes it).  KeyError when the vocabulary has no
`<unk>`. -/
def learnCodesOf (ord : Nat → List Nat → List Nat) (tf : Dict Str Int) (vocab : List Ty) (vocabSize minEv : Int) : Py (List Ty) :=
  let rev := revIdx vocab
  if rev.length ≠ vocab.length then .error .assertion
  else if ¬ (vocab.length : Int) < vocabSize then .error .assertion
  else match Dict.get? rev unkName with
    | none => .error .key
    | some unk => learnCodes ord (tf.map fun p => (wordCodes rev unk p.1, p.2)) vocab (vocabSize - vocab.length).toNat minEv Level.subword

/-- `{prepare_word(word): freq ...}` (nlcodec/bpe.py:300) -/
def preparedFreqs (tf : Dict Str Int) : Dict Str Int := tf.foldl (fun d p => Dict.set d (prepareWord p.1) p.2) []

/-- `char_freqs` (nlcodec/bpe.py:302-305) -/
def charFreqs (tf : Dict Str Int) : Dict Str Int := tf.foldl (fun d p => p.1.foldl (fun d c => Dict.incr d [c] p.2) d) []

/-- `learn_subwords` (nlcodec/bpe.py:285-318) -/
def learnSubwords (ord : Nat → List Nat → List Nat) (tf : Dict Str Int) (vocabSize minEv : Int)
    (initVocab : Dict Str Int → Py (List Ty)) : Py (List Ty) :=
  let tf1 := preparedFreqs tf
  match initVocab (charFreqs tf1) with
  | .error e => .error e
  | .ok v => if vocabSize = -1 then .ok v else learnCodesOf ord tf1 v vocabSize minEv

/-- `sys.maxsize` (nlcodec/codec.py:509) -/
def maxSize : Int := 2 ^ 63 - 1

/-- `BPEScheme.learn` (nlcodec/codec.py:503-527) on term frequencies and a line count; `min_freq` is not used by the code. -/
def bpeLearnTf (ord : Nat → List Nat → List Nat) (A : Acc) (tf : Dict Str Int) (lineCount : Int) (vocabSize : Int) (_minFreq : Int)
    (cov : Option A.F) (minEv : Int) : Py (List Ty) :=
  let vs := if 1 < minEv ∧ vocabSize ≤ 1 then maxSize else vocabSize
  if ¬ 0 < vs then .error .assertion
  else learnSubwords ord tf vs minEv fun cf => getInitVocab A Level.char cf cov (some lineCount) 1 (-1)

/-- `BPEScheme.learn(data, ...)` (nlcodec/codec.py:503-527) with `term_freqs=False` -/
def bpeLearn (ord : Nat → List Nat → List Nat) (A : Acc) (data : List Str) (vocabSize minFreq : Int) (cov : Option A.F)
    (minEv : Int) : Py (List Ty) :=
  let (tf, n) := termFrequencies .word data
  bpeLearnTf ord A tf n vocabSize minFreq cov minEv

/-- the keys of `REGISTRY` (nlcodec/codec.py:632-639); a level given by the user is one of these or raises KeyError -/
inductive LevelName
  | char | word | bpe | subword | clasz | byte
  deriving DecidableEq, Repr

/-- `DEF_MIN_CO_EV` (nlcodec/__init__.py:17) -/
def MIN_CO_EV : Int := 95

/-- default of `min_freq` (nlcodec/codec.py:644-646); `None` is 0 -/
def effMinFreq (level : LevelName) (minFreq : Int) : Int :=
  if minFreq < 1 then (if level = .word then 1 else 20) else minFreq

/-- `learn_vocab(inp, level, None, vocab_size, min_freq, False, char_coverage, min_co_ev)` (nlcodec/codec.py:642-664), without
the model file and logging.  `min_co_ev` is passed on only if the level is called 'bpe'. -/
def learnVocab (ord : Nat → List Nat → List Nat) (A : Acc) (level : LevelName) (data : List Str) (vocabSize minFreq : Int)
    (cov : Option A.F) (minCoEv : Int) : Py (List Ty) :=
  let mf := effMinFreq level minFreq
  match level with
  | .word => learnRaw A .word data vocabSize mf none
  | .char => learnRaw A .char data vocabSize mf cov
  | .clasz => learnRaw A .clasz data vocabSize mf cov
  | .byte => learnRaw A .byte data vocabSize mf cov
  | .bpe => bpeLearn ord A data vocabSize mf cov minCoEv
  | .subword => bpeLearn ord A data vocabSize mf cov MIN_CO_EV

end Verif
