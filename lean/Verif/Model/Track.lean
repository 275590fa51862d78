import Verif.Model.Bpe
import Verif.Model.Quality
/-!
# Merging one by one and tracking the effect

Model of nlcodec/eval/bpe_len.py: `BPECodecXt` (22-63) and `BpeTracker` (66-195).

The memory of linked nodes and the index of pairs are those of Verif.Model.Bpe (`Mem`, `ixAdd`, `ixRemove`, `deleteNode`).  Means and
imbalances are exact rationals (`none` is `nan`), see Verif.Model.TrackFloat for rounding; logging and the command line (203-218) are left out.
-/

namespace Verif

/-! ## BPECodecXt -/

/-- `BPECodecXt`: the scheme object, changed in place, and `merge_buffer` (nlcodec/eval/bpe_len.py:22-39) -/
structure CodecXt where
  scheme : Scheme
  buffer : List Ty

/-- the check of the buffer (nlcodec/eval/bpe_len.py:33-34): `len(None)` is a TypeError -/
def checkKids : List Ty → Py Unit
  | [] => .ok ()
  | m :: ms => if m.kids = [] then .error .type else if m.kids.length = 2 then checkKids ms else .error .assertion

/-- `BPECodecXt.__init__` (nlcodec/eval/bpe_len.py:27-39) on the types of a file and the `max_level` of its header (`none`: no header).  The trie is built
twice from the same table; once is enough here. -/
def xtInit (maxLevel : Option Int) (types : List Ty) : Py CodecXt :=
  if maxLevel = some Level.subword then
    let initTable := types.filter fun t => decide (t.level < Level.subword)
    let buffer := types.filter fun t => decide (Level.subword ≤ t.level)
    match checkKids buffer with
    | .error e => .error e
    | .ok () => match Scheme.make .bpe initTable with
      | .error e => .error e
      | .ok s => .ok ⟨s, buffer⟩
  else .error .assertion

/-- `merge` (nlcodec/eval/bpe_len.py:53-63): the new codec and the merged type.  `idx_to_str` has the length of the table throughout. -/
def CodecXt.merge (x : CodecXt) : Py (CodecXt × Ty) :=
  match x.buffer with
  | [] => .error .assertion
  | m :: rest =>
    if x.scheme.table.length = m.idx then
      .ok (⟨{ x.scheme with table := x.scheme.table ++ [m], s2i := Dict.set x.scheme.s2i m.name m.idx,
                            root := x.scheme.root.insert m.name m }, rest⟩, m)
    else .error .assertion

/-- `n` calls of `merge` -/
def CodecXt.mergeN : Nat → CodecXt → Py CodecXt
  | 0, x => .ok x
  | n + 1, x => match x.merge with
    | .error e => .error e
    | .ok (x', _) => CodecXt.mergeN n x'

/-! ## BpeTracker -/

/-- attributes of the tracker (nlcodec/eval/bpe_len.py:70-77, 100-119): the nodes, the index, the array `uni`, the array `seq_lens`, and the attribute `data` of
the nodes, which is the number of their sequence and never changes -/
structure Track where
  mem : Mem
  ix : Dict Pair (List Nat)
  uni : List Int
  lens : List Int
  owner : Nat → Nat

/-- `arr[i] += x` -/
def arrAdd (arr : List Int) (i : Nat) (x : Int) : Py (List Int) :=
  match arr[i]? with
  | none => .error .index
  | some v => .ok (arr.set i (v + x))

/-- `arr[i] = x` -/
def arrSet (arr : List Int) (i : Nat) (x : Int) : Py (List Int) :=
  if i < arr.length then .ok (arr.set i x) else .error .index

/-- the pairs of one sequence (nlcodec/eval/bpe_len.py:110-111); `n` is the address of the first node of `seq` -/
def trackPairs : Nat → List Nat → Dict Pair (List Nat) → Dict Pair (List Nat)
  | n, a :: b :: rest, ix => trackPairs (n + 1) (b :: rest) (ixAdd ix (a, b) n)
  | _, _, ix => ix

/-- what the loop over the sequences builds (nlcodec/eval/bpe_len.py:101-111) -/
structure TrackIndex where
  mem : Mem
  next : Nat
  ix : Dict Pair (List Nat)
  uni : Dict Nat Int
  lens : List Int
  owner : Nat → Nat

/-- the loop over the encoded sequences (nlcodec/eval/bpe_len.py:104-111) -/
def trackSeqs : List (List Nat) → TrackIndex → TrackIndex
  | [], T => T
  | seq :: rest, T => trackSeqs rest
    { mem := fromSeq T.mem T.next seq 1, next := T.next + seq.length, ix := trackPairs T.next seq T.ix,
      uni := seq.foldl (fun d v => Dict.incr d v 1) T.uni, lens := T.lens ++ [(seq.length : Int)],
      owner := fun n => if T.next ≤ n ∧ n < T.next + seq.length then T.lens.length else T.owner n }

/-- `for idx, freq in uni.items(): self.uni[idx] = freq` (nlcodec/eval/bpe_len.py:117-118) -/
def fillUni : List (Nat × Int) → List Int → Py (List Int)
  | [], arr => .ok arr
  | (i, f) :: rest, arr => match arrSet arr i f with
    | .error e => .error e
    | .ok arr' => fillUni rest arr'

/-- `BpeTracker.__init__` and `create_index` (nlcodec/eval/bpe_len.py:70-77, 99-119) on the encoded sequences; `total` is `bpe.total_types()`.  `np.long` (72) exists in
numpy before 1.24 and from 2.0 on; elsewhere line 72 fails, which is not modelled. -/
def trackInit (total : Nat) (seqs : List (List Nat)) : Py Track :=
  let T := trackSeqs seqs { mem := fun _ => ⟨0, none, none, 0⟩, next := 0, ix := [], uni := [], lens := [], owner := fun _ => 0 }
  match fillUni T.uni (List.replicate total 0) with
  | .error e => .error e
  | .ok uni => .ok { mem := T.mem, ix := T.ix, uni := uni, lens := T.lens, owner := T.owner }

/-- correction for a node that is not merged (nlcodec/eval/bpe_len.py:169-171) -/
def trackSkip (a b R : Nat) (f : Int) (uni : List Int) : Py (List Int) :=
  match arrAdd uni R (-f) with
  | .error e => .error e
  | .ok u1 => match arrAdd u1 a f with
    | .error e => .error e
    | .ok u2 => arrAdd u2 b (-f)

/-- updates for the left neighbour (nlcodec/eval/bpe_len.py:182-185) -/
def trackLeft (a R : Nat) (m : Mem) (x : Option Nat) (ix : Dict Pair (List Nat)) : Py (Dict Pair (List Nat)) :=
  match x with
  | none => .ok ix
  | some x => match ixRemove ix ((m x).val, a) x with
    | .error e => .error e
    | .ok ix1 => .ok (ixAdd ix1 ((m x).val, R) x)

/-- updates for the right neighbour (nlcodec/eval/bpe_len.py:186-189) -/
def trackRight (b R : Nat) (m : Mem) (n bn : Nat) (y : Option Nat) (ix : Dict Pair (List Nat)) : Py (Dict Pair (List Nat)) :=
  match y with
  | none => .ok ix
  | some y => match ixRemove ix (b, (m y).val) bn with
    | .error e => .error e
    | .ok ix1 => .ok (ixAdd ix1 (R, (m y).val) n)

/-- body of the loop over `update_nodes` (nlcodec/eval/bpe_len.py:166-189) for the node at `n` -/
def trackNode (a b R : Nat) (T : Track) (n : Nat) : Py Track :=
  let nd := T.mem n
  let skip : Py Track := match trackSkip a b R nd.freq T.uni with
    | .error e => .error e
    | .ok uni => .ok { T with uni := uni }
  if nd.isUnlinked then skip
  else match nd.right with
    | none => if a ≠ b ∧ nd.val ≠ a then .error .assertion else .error .attr
    | some bn =>
      if a = b ∧ (R = nd.val ∨ R = (T.mem bn).val) then skip
      else if nd.val ≠ a then .error .assertion
      else if (T.mem bn).val ≠ b then .error .assertion
      else
        let m := deleteNode (T.mem.upd n { nd with val := R }) bn
        match arrAdd T.lens (T.owner n) (-1) with
        | .error e => .error e
        | .ok lens => match lens[T.owner n]? with
          | none => .error .index
          | some l =>
            if 0 < l then
              match trackLeft a R m (m n).left T.ix with
              | .error e => .error e
              | .ok ix1 => match trackRight b R m n bn (m n).right ix1 with
                | .error e => .error e
                | .ok ix2 => .ok { T with mem := m, ix := ix2, lens := lens }
            else .error .assertion

/-- the loop over `update_nodes` (nlcodec/eval/bpe_len.py:165-189) -/
def trackNodes (a b R : Nat) : List Nat → Track → Py Track
  | [], T => .ok T
  | n :: ns, T => match trackNode a b R T n with
    | .error e => .error e
    | .ok T' => trackNodes a b R ns T'

/-- one round after `merge` returned the type with index `R` and parts `a`, `b` (nlcodec/eval/bpe_len.py:158-189); `ord` is the iteration order of the set -/
def trackMerge (ord : List Nat → List Nat) (a b R : Nat) (T : Track) : Py Track :=
  match Dict.get? T.ix (a, b) with
  | none => .ok T
  | some nodes =>
    let T1 := { T with ix := Dict.erase T.ix (a, b) }
    if nodes = [] then .ok T1
    else
      let f := isum ((ord nodes).map fun n => (T.mem n).freq)
      match arrSet T1.uni R f with
      | .error e => .error e
      | .ok u1 => match arrAdd u1 a (-f) with
        | .error e => .error e
        | .ok u2 => match arrAdd u2 b (-f) with
          | .error e => .error e
          | .ok u3 => trackNodes a b R (ord nodes) { T1 with uni := u3 }

/-- `np.mean(self.seq_lens)` (nlcodec/eval/bpe_len.py:129-130); `none` is `nan` -/
def meanLen (lens : List Int) : Option ℚ := if lens = [] then none else some ((isum lens : ℚ) / lens.length)

/-- one row of the result: `(k, emd, mu_len)` (nlcodec/eval/bpe_len.py:149-152) -/
abbrev TrackRow := Nat × Option ℚ × Option ℚ

/-- `k`, `earth_mov_dist(self.uni[:k])` and the mean length (nlcodec/eval/bpe_len.py:149-152, 190-193) -/
def trackRow (k : Nat) (T : Track) : Py TrackRow :=
  match trackerEmd ((T.uni.take k).map fun (x : Int) => (x : ℚ)) with
  | .error e => .error e
  | .ok emd => .ok (k, emd, meanLen T.lens)

/-- `track_merges` (nlcodec/eval/bpe_len.py:132-195): the rows and the final state, where `mkRow` computes a row from the number of types and the state.  The loop
ends when the buffer is empty, so its length is enough fuel. -/
def trackMergesBy (mkRow : Nat → Track → Py TrackRow) (ord : Nat → List Nat → List Nat) : Nat → CodecXt → Track → Py (List TrackRow × CodecXt × Track)
  | 0, x, T => match mkRow x.scheme.table.length T with
    | .error e => .error e
    | .ok row => .ok ([row], x, T)
  | n + 1, x, T => match mkRow x.scheme.table.length T with
    | .error e => .error e
    | .ok row => match x.merge with
      | .error e => .error e
      | .ok (x', t) => match t.kids with
        | [ta, tb] => match trackMerge (ord n) ta.idx tb.idx t.idx T with
          | .error e => .error e
          | .ok T' => match trackMergesBy mkRow ord n x' T' with
            | .error e => .error e
            | .ok (rows, r) => .ok (row :: rows, r)
        | _ => .error .value

/-- `track_merges` (nlcodec/eval/bpe_len.py:132-195) with exact rows -/
def trackMerges : (Nat → List Nat → List Nat) → Nat → CodecXt → Track → Py (List TrackRow × CodecXt × Track) := trackMergesBy trackRow

/-- encoding of the corpus (nlcodec/eval/bpe_len.py:100); in parallel it gives the same sequences (property C55).  Ids of this scheme are never negative (property
C05), nodes hold natural numbers here. -/
def encodeAll (s : Scheme) : List Str → Py (List (List Nat))
  | [] => .ok []
  | l :: ls => match s.encode l with
    | .error e => .error e
    | .ok ids => match encodeAll s ls with
      | .error e => .error e
      | .ok rest => .ok (ids.map Int.toNat :: rest)

/-- `estimate(codec_path, data)` (nlcodec/eval/bpe_len.py:198-201), where `mkRow` computes the rows -/
def trackEstimateBy (mkRow : Nat → Track → Py TrackRow) (ord : Nat → List Nat → List Nat) (maxLevel : Option Int) (types : List Ty) (data : List Str) :
    Py (List TrackRow × CodecXt × Track) :=
  match xtInit maxLevel types with
  | .error e => .error e
  | .ok x => match encodeAll x.scheme data with
    | .error e => .error e
    | .ok seqs => match trackInit (x.scheme.table.length + x.buffer.length) seqs with
      | .error e => .error e
      | .ok T => trackMergesBy mkRow ord x.buffer.length x T

/-- `estimate(codec_path, data)` (nlcodec/eval/bpe_len.py:198-201) with exact rows -/
def trackEstimate : (Nat → List Nat → List Nat) → Option Int → List Ty → List Str → Py (List TrackRow × CodecXt × Track) := trackEstimateBy trackRow

end Verif
