import Verif.Py.Basic
/-!
# Specification of greedy longest-match segmentation

Independent of tries and loops.  `none` stands for an unknown character.
-/

namespace Verif.Spec
open Verif

/-- `Greedy names s out`: reading `s` from the left, `out` lists at each position the longest name that is a
prefix of the remaining text, or `none` (one character skipped) if no name is. -/
inductive Greedy (names : List Str) : Str → List (Option Str) → Prop where
  | nil : Greedy names [] []
  | tok {w r : Str} {out : List (Option Str)} :
      w ≠ [] → w ∈ names → (∀ w' ∈ names, w' <+: w ++ r → w'.length ≤ w.length) → Greedy names r out →
      Greedy names (w ++ r) (some w :: out)
  | unk {c : Nat} {r : Str} {out : List (Option Str)} :
      (∀ w ∈ names, w ≠ [] → ¬ w <+: c :: r) → Greedy names r out → Greedy names (c :: r) (none :: out)

end Verif.Spec
