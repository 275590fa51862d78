import Mathlib.Data.List.Infix
import Verif.Py.Basic
/-! # Specification of the number of occurrences of a string in another -/

namespace Verif.Spec
open Verif

/-- number of positions of `s` at which `n` (not empty) occurs; occurrences may overlap -/
def occ (n s : Str) : Nat := s.tails.countP fun r => decide (n <+: r)

example : occ [1, 1] [1, 1, 1, 2, 1, 1] = 3 := by decide

end Verif.Spec
