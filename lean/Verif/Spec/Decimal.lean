import Verif.Py.Basic
import Mathlib.Algebra.Order.Ring.Rat
import Mathlib.Algebra.Order.Group.Unbundled.Abs
import Mathlib.Data.Rat.Cast.Defs
/-!
# Specification: decimal numerals
-/

namespace Verif.Spec
open Verif

/-- a text of one or more digits, and its value -/
def numeral (s : Str) : Option Nat :=
  if s ≠ [] ∧ ∀ c ∈ s, 48 ≤ c ∧ c ≤ 57 then some (s.foldl (fun a c => 10 * a + (c - 48)) 0) else none

/-- the number that is written after the letter `e`; nothing stands for zero -/
def readExponent : Str → Option ℤ
  | [] => some 0
  | 101 :: 43 :: ds => (numeral ds).map fun n => (n : ℤ)
  | 101 :: 45 :: ds => (numeral ds).map fun n => -(n : ℤ)
  | _ => none

/-- digits, possibly with a point among them -/
def readPoint (s : Str) : Option ℚ :=
  match s.dropWhile (· ≠ 46) with
  | [] => (numeral s).map fun n => (n : ℚ)
  | _ :: frac => match numeral (s.takeWhile (· ≠ 46)), numeral frac with
    | some a, some b => some (a + b / 10 ^ frac.length)
    | _, _ => none

/-- the number that a decimal numeral such as `12`, `0.5` or `1.25e-07` stands for -/
def readDecimal (s : Str) : Option ℚ :=
  match readPoint (s.takeWhile (· ≠ 101)), readExponent (s.dropWhile (· ≠ 101)) with
  | some v, some e => some (v * 10 ^ e)
  | _, _ => none

/-- a number with at most six significant digits -/
def SixDigits (v : ℚ) : Prop := ∃ (m : ℕ) (k : ℤ), m < 10 ^ 6 ∧ v = m * 10 ^ k

/-- `v` is as near to `x` as a number of six significant digits can be -/
def NearestSix (x v : ℚ) : Prop := SixDigits v ∧ ∀ w, SixDigits w → |v - x| ≤ |w - x|

end Verif.Spec
