import Verif.Model.Eval
import Mathlib.Data.Rat.Floor
/-! # Memory reports

Model of `max_RSS` (nlcodec/utils.py:62-77). -/

namespace Verif

/-- `max_RSS()` (nlcodec/utils.py:62-77); `mem` is what `getrusage` gave, `darwin` says whether `'darwin' in sys.platform`.  A quotient of numbers
is rounded to binary64; `int` cuts off the fraction, and the value is not negative. -/
def maxRSS (darwin : Bool) (mem : Nat) : Nat × Str :=
  let h1 : ℚ := if darwin then rnd64 ((mem : ℚ) / 10 ^ 3) else mem
  if (10 : ℚ) ^ 3 ≤ h1 then (mem, intStr ⌊rnd64 (h1 / 10 ^ 3)⌋ ++ lit "MB") else (mem, intStr ⌊h1⌋ ++ lit "KB")

end Verif
