import Verif.Spec.Text
/-! # Specification: the lines of a text -/

namespace Verif.Spec
open Verif

/-- no line break inside -/
def NoBreak (l : Str) : Prop := 10 ∉ l ∧ 13 ∉ l

instance (l : Str) : Decidable (NoBreak l) := by unfold NoBreak; infer_instance

/-- `Lines text ls`: the lines of a text are `ls`.  A line ends with LF, CR LF or CR; the last line may lack the line break. -/
inductive Lines : Str → List Str → Prop where
  | nil : Lines [] []
  | last {l : Str} : l ≠ [] → NoBreak l → Lines l [l]
  | lf {l r : Str} {ls : List Str} : NoBreak l → Lines r ls → Lines (l ++ 10 :: r) (l :: ls)
  | crlf {l r : Str} {ls : List Str} : NoBreak l → Lines r ls → Lines (l ++ 13 :: 10 :: r) (l :: ls)
  | cr {l r : Str} {ls : List Str} : NoBreak l → r.head? ≠ some 10 → Lines r ls → Lines (l ++ 13 :: r) (l :: ls)

end Verif.Spec
