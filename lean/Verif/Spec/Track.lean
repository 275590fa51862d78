import Verif.Spec.Bpe
import Mathlib.Data.Rat.Cast.Order
/-!
# Specification of tracked merges
-/

namespace Verif.Spec

/-- sequences of weight one -/
def plain (seqs : List (List Nat)) : Corpus := seqs.map fun s => (s, 1)

/-- the corpora before, between and after the given merges: each is the one before with the two parts of the merged type replaced by it everywhere -/
inductive Stages : List Ty → List Corpus → Prop
  | last (C : Corpus) : Stages [] [C]
  | step {t ta tb : Ty} {ts : List Ty} {C C1 : Corpus} {Cs : List Corpus} : t.kids = [ta, tb] → Merged (ta.idx, tb.idx) t.idx C C1 →
      Stages ts (C1 :: Cs) → Stages (t :: ts) (C :: C1 :: Cs)

/-- total number of occurrences of a symbol -/
def symTotal (C : Corpus) (v : Nat) : Int := (C.map fun s => s.2 * (s.1.count v : Int)).sum

/-- the lengths of the sequences -/
def seqLens (C : Corpus) : List Int := C.map fun s => (s.1.length : Int)

/-- the mean of the lengths -/
def meanOf (ls : List Int) : Option ℚ := if ls = [] then none else some ((ls.sum : ℚ) / ls.length)

/-- some merge joins a symbol `v` with itself -/
def Doubles (ts : List Ty) (v : Nat) : Prop := ∃ t ∈ ts, ∃ ta tb, t.kids = [ta, tb] ∧ ta.idx = v ∧ tb.idx = v

/-- by how much the tracked count of `v` is too small after the merges `ts`, given the corpora before, between and after them: for each merge of `v` with
itself, twice the number of occurrences of `v v` that are not replaced, because they overlap with one that is -/
def shortfall (v : Nat) : List Ty → List Corpus → Int
  | t :: ts, C :: C1 :: Cs =>
    (if t.kids.map (·.idx) = [v, v] then 2 * (pairCount C (v, v) - symTotal C1 t.idx) else 0) + shortfall v ts (C1 :: Cs)
  | _, _ => 0

/-- half the distance between the distribution of the counts and the uniform one (`none`: no counts) -/
def imbalance (cs : List Int) : Option ℚ :=
  if cs.sum = 0 then none else some ((cs.map fun (c : Int) => |(c : ℚ) / cs.sum - 1 / cs.length|).sum / 2)

/-- the table is the initial types followed by merges of two earlier types -/
structure MergeTable (init ms : List Ty) : Prop where
  indexed : Indexed (init ++ ms)
  low : ∀ t ∈ init, t.level < 1
  high : ∀ t ∈ ms, 1 ≤ t.level
  kids : ∀ t ∈ ms, ∃ ta tb, t.kids = [ta, tb] ∧ ta.idx < t.idx ∧ tb.idx < t.idx

/-- what one row of the report says of the corpus `C` over `k` types: the size, the imbalance of the counts, each too small by `short`, the mean length -/
def RowOf (short : Nat → Int) (k : Nat) (C : Corpus) (row : Nat × Option ℚ × Option ℚ) : Prop :=
  row.1 = k ∧ row.2.2 = meanOf (seqLens C) ∧ row.2.1 = imbalance ((List.range k).map fun v => symTotal C v - short v)

end Verif.Spec
