import Mathlib.Algebra.Order.Ring.Rat
import Mathlib.Algebra.Order.Field.Power
/-!
# Rounding of numbers, independent of the model
-/

namespace Verif.Spec

/-- what is used of floating-point rounding: it preserves order, is exact on small counts and on numbers that are already rounded,
and doubling is exact -/
structure Rounding (fl : ℚ → ℚ) : Prop where
  mono : ∀ {x y : ℚ}, x ≤ y → fl x ≤ fl y
  nat : ∀ n : ℕ, n ≤ 2 ^ 53 → fl n = n
  idem : ∀ x, fl (fl x) = fl x
  dbl : ∀ x, fl (2 * x) = 2 * fl x

/-- numbers with 53 significant bits: the values of binary64, without exponent limits -/
def F64 (y : ℚ) : Prop := ∃ m e : ℤ, |m| < 2 ^ 53 ∧ y = m * 2 ^ e

/-- `y` is `x` rounded to binary64: a nearest number, and if there are two, the one whose 53-bit significand is even -/
structure Nearest64 (x y : ℚ) : Prop where
  f64 : F64 y
  near : ∀ z, F64 z → |x - y| ≤ |x - z|
  even : ∀ z, F64 z → z ≠ y → |x - z| = |x - y| → ∃ m e : ℤ, 2 ^ 52 ≤ |m| ∧ |m| < 2 ^ 53 ∧ m % 2 = 0 ∧ y = m * 2 ^ e

end Verif.Spec
