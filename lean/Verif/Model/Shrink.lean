import Verif.Model.File
/-!
# Shrinking a vocabulary to given text

Model of `EncoderScheme.shrink_vocab` (nlcodec/codec.py:289-346).  The files are given by their lines; logging and the progress
bar are left out.
-/

namespace Verif

/-- `freqs.update(self.encode(line))` for all lines of all files (nlcodec/codec.py:306-310) -/
def shrinkFreqs (s : Scheme) : List Str → Dict Int Int → Py (Dict Int Int)
  | [], d => .ok d
  | l :: ls, d => match s.encode l with
    | .error e => .error e
    | .ok ids => shrinkFreqs s ls (Dict.count d ids)

/-- `max(...)` of integers; ValueError when empty (nlcodec/codec.py:311) -/
def pyMaxInt : List Int → Py Int
  | [] => .error .value
  | x :: xs => .ok (xs.foldl max x)

/-- the flags `removals` before sub pieces are looked at (nlcodec/codec.py:312-316) -/
def removals0 (table : List Ty) (freqs : Dict Int Int) (minFreq : Int) : List Bool :=
  table.zipIdx.map fun (t, i) =>
    if t.level = Level.reserved then false else decide ((Dict.get? freqs (i : Int)).getD 0 < minFreq)

/-- `for piece in combo.kids: if removals[piece.idx]: removals[piece.idx] = False` (nlcodec/codec.py:323-325) -/
def keepKids : List Ty → List Bool → Py (List Bool)
  | [], r => .ok r
  | k :: ks, r => match r[k.idx]? with
    | none => .error .index
    | some true => keepKids ks (r.set k.idx false)
    | some false => keepKids ks r

/-- the loop over `range(len(self.table) - 1, -1, -1)` (nlcodec/codec.py:319-325); the indices below the first argument are
left to do -/
def keepLoop (table : List Ty) : Nat → List Bool → Py (List Bool)
  | 0, r => .ok r
  | i + 1, r => match table[i]?, r[i]? with
    | some t, some b =>
      if t.idx ≠ i then .error .assertion
      else if b then keepLoop table i r
      else match keepKids t.kids r with
        | .error e => .error e
        | .ok r' => keepLoop table i r'
    | _, _ => .error .index

/-- `mapping` (nlcodec/codec.py:327-332); `i` is the running index -/
def shrinkMap : List (Bool × Ty) → Nat → Py (List Nat)
  | [], _ => .ok []
  | (b, t) :: rest, i =>
    if t.idx ≠ i then .error .assertion
    else match shrinkMap rest (i + 1) with
      | .error e => .error e
      | .ok m => .ok (if b then m else i :: m)

/-- `rev_mapping` (nlcodec/codec.py:335) -/
def revMap (mapping : List Nat) : Dict Nat Nat := mapping.zipIdx.foldl (fun d p => Dict.set d p.1 p.2) []

/-- `[new_table[rev_mapping[k.idx]] for k in old_t.kids]` (nlcodec/codec.py:341) -/
def newKids (rev : Dict Nat Nat) (new : List Ty) : List Ty → Py (List Ty)
  | [] => .ok []
  | k :: ks => match Dict.get? rev k.idx with
    | none => .error .key
    | some j => match new[j]? with
      | none => .error .index
      | some t => match newKids rev new ks with
        | .error e => .error e
        | .ok ts => .ok (t :: ts)

/-- the loop making `new_table` (nlcodec/codec.py:336-343) -/
def newTable (table : List Ty) (rev : Dict Nat Nat) : List Nat → List Ty → Py (List Ty)
  | [], new => .ok new
  | o :: os, new => match table[o]? with
    | none => .error .index
    | some t => match newKids rev new t.kids with
      | .error e => .error e
      | .ok ks => newTable table rev os (new ++ [{ t with idx := new.length, kids := ks }])

/-- `shrink_vocab(files, min_freq)` (nlcodec/codec.py:289-346) on the lines of the files: the mapping returned and the new table -/
def shrinkVocab (s : Scheme) (lines : List Str) (minFreq : Int) : Py (List Nat × List Ty) :=
  match shrinkFreqs s lines [] with
  | .error e => .error e
  | .ok freqs => match pyMaxInt (Dict.keys freqs) with
    | .error e => .error e
    | .ok top =>
      if ¬ top < s.table.length then .error .assertion
      else match keepLoop s.table s.table.length (removals0 s.table freqs minFreq) with
        | .error e => .error e
        | .ok r => match shrinkMap (r.zip s.table) 0 with
          | .error e => .error e
          | .ok mapping => match newTable s.table (revMap mapping) mapping [] with
            | .error e => .error e
            | .ok new => .ok (mapping, new)

/-- the file written by `shrink_vocab(files, min_freq, save_at)` (nlcodec/codec.py:344-345): no scheme name in the header -/
def shrinkSave (J : Json) (s : Scheme) (lines : List Str) (minFreq : Int) : Py Str :=
  match shrinkVocab s lines minFreq with
  | .error e => .error e
  | .ok (_, new) => writeOut J none new

end Verif
