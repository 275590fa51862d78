import Verif.Spec.Bpe
import Mathlib.Data.List.Chain
/-!
# Specification for the two-level learner

Maximal runs of equal symbols, and BPE where ties between pairs may be broken in any way.
-/

namespace Verif.Spec

/-- the sequence made of runs `(x, n)`: `n` times `x` -/
def unrun (rs : List (Nat × Nat)) : List Nat := rs.flatMap fun r => List.replicate r.2 r.1

/-- `rs` are the maximal runs of equal symbols of `s` -/
def Runs (rs : List (Nat × Nat)) (s : List Nat) : Prop :=
  (∀ r ∈ rs, 0 < r.2) ∧ rs.IsChain (fun r r' => r.1 ≠ r'.1) ∧ unrun rs = s

/-- `D` is `C` with every maximal run of three or more equal symbols cut to two -/
def Squeezed (C D : Corpus) : Prop :=
  List.Forall₂ (fun s t => t.2 = s.2 ∧ ∃ rs, Runs rs s.1 ∧ Runs (rs.map fun r => (r.1, min r.2 2)) t.1) C D

/-- `p` is a most frequent pair of `C` -/
def IsMax (C : Corpus) (p : Nat × Nat) : Prop := 0 < pairCount C p ∧ ∀ q, pairCount C q ≤ pairCount C p

/-- the occurrences of `p` do not overlap: if `p` is `x x` then no sequence contains `x x x` -/
def Apart (C : Corpus) (p : Nat × Nat) : Prop := p.1 = p.2 → ∀ s ∈ C, ¬ [p.1, p.1, p.1] <:+: s.1

/-- `n` rounds of BPE from the corpus `C` and the table `v` to `C'` and `v'`, as `Run` but with any most frequent pair in each
round, whose occurrences do not overlap -/
inductive RunMax (minEv level : Int) : Corpus → List Ty → Nat → Corpus → List Ty → Prop
  | refl (C : Corpus) (v : List Ty) : RunMax minEv level C v 0 C v
  | step {C C1 C' : Corpus} {v v' : List Ty} {n : Nat} {p : Nat × Nat} {ta tb : Ty} : IsMax C p → minEv ≤ pairCount C p → Apart C p →
      v[p.1]? = some ta → v[p.2]? = some tb → Merged p v.length C C1 →
      RunMax minEv level C1 (v ++ [mergedType v ta tb level (pairCount C p)]) n C' v' →
      RunMax minEv level C v (n + 1) C' v'

/-- no sequence contains a non-empty block three times in a row -/
def CubeFree (C : Corpus) : Prop := ∀ s ∈ C, ∀ w : List Nat, w ≠ [] → ¬ (w ++ w ++ w) <:+: s.1

/-- `j` is the last position of `w` -/
def LastAt (ns : List Str) (w : Str) (j : Nat) : Prop := ns[j]? = some w ∧ ∀ k, j < k → ns[k]? ≠ some w

end Verif.Spec
