import Mathlib.Data.List.Basic
/-! # Specification: interleavings of sequences of events -/

namespace Verif.Spec

/-- `out` consists of the elements of the lists `ls`, those of each list in their order -/
inductive Interleaved {α : Type} : List (List α) → List α → Prop where
  | done {ls : List (List α)} : (∀ l ∈ ls, l = []) → Interleaved ls []
  | step {l₁ l₂ : List (List α)} {t out : List α} {a : α} : Interleaved (l₁ ++ t :: l₂) out → Interleaved (l₁ ++ (a :: t) :: l₂) (a :: out)

end Verif.Spec
