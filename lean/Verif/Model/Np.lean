import Verif.Py.Basic
/-!
# The part of numpy's type system used by the database

Integer data types, `best_dtype` (nlcodec/db/core.py:34-52), the promotion done by `np.concatenate`
(nlcodec/db/core.py:93) and the arithmetic of fixed-width scalars (nlcodec/db/core.py:116-117).
-/

namespace Verif

/-- numpy types that occur as the type of a field: the integer types and `float64`, to which mixtures of `uint64` and signed
types are promoted -/
inductive NpTy where
  | u8 | i8 | u16 | i16 | u32 | i32 | u64 | i64 | f64
  deriving DecidableEq, Repr

namespace NpTy

/-- is a signed integer type -/
def signed : NpTy → Bool
  | i8 | i16 | i32 | i64 => true
  | _ => false

/-- width in bits -/
def bits : NpTy → Nat
  | u8 | i8 => 8
  | u16 | i16 => 16
  | u32 | i32 => 32
  | u64 | i64 | f64 => 64

/-- `np.iinfo(t).min` (nlcodec/db/core.py:47-48); not used for `float64` -/
def lo : NpTy → Int
  | i8 => -128
  | i16 => -32768
  | i32 => -2147483648
  | i64 => -9223372036854775808
  | _ => 0

/-- `np.iinfo(t).max` (nlcodec/db/core.py:47-48); not used for `float64` -/
def hi : NpTy → Int
  | u8 => 255
  | i8 => 127
  | u16 => 65535
  | i16 => 32767
  | u32 => 4294967295
  | i32 => 2147483647
  | u64 => 18446744073709551615
  | i64 => 9223372036854775807
  | f64 => 0

/-- the signed type of the given width; `float64` if there is none -/
def signedOf : Nat → NpTy
  | 8 => i8
  | 16 => i16
  | 32 => i32
  | 64 => i64
  | _ => f64

/-- numpy's promotion of two types, as done by `np.concatenate` (nlcodec/db/core.py:93): the wider one if both are signed or
both unsigned; a signed type that holds both ranges otherwise; `float64` if there is none. -/
def promote (a b : NpTy) : NpTy :=
  if a = f64 ∨ b = f64 then f64
  else if a.signed = b.signed then (if a.bits < b.bits then b else a)
  else
    let u := if a.signed then b else a
    let s := if a.signed then a else b
    if u.bits < s.bits then s else signedOf (2 * u.bits)

end NpTy

/-- `options` of `best_dtype` (nlcodec/db/core.py:44) -/
def dtypeOptions : List NpTy := [.u8, .i8, .u16, .i16, .u32, .i32, .u64, .i64]

/-- `best_dtype(mn, mx)` (nlcodec/db/core.py:34-52); the type checks of the arguments are left out -/
def bestDtype (mn mx : Int) : Py NpTy :=
  match dtypeOptions.find? fun t => decide (t.lo ≤ mn) && decide (mx ≤ t.hi) with
  | some t => .ok t
  | none => .error .assertion

/-- a natural number rounded to 53 significant bits, ties to even -/
def roundNat (n : Nat) : Nat :=
  if n < 2 ^ 53 then n
  else
    let e := n.log2 - 52
    let q := n / 2 ^ e
    let r := n % 2 ^ e
    (if 2 * r < 2 ^ e then q else if 2 ^ e < 2 * r then q + 1 else if q % 2 = 0 then q else q + 1) * 2 ^ e

/-- the value of an integer stored as `float64` (IEEE 754 binary64; integers below 2^64 are far from the exponent limit) -/
def roundF64 (v : Int) : Int := if v < 0 then -(roundNat v.natAbs : Int) else roundNat v.natAbs

/-- the value `v` as an element of type `t`: integer types wrap around, `float64` rounds -/
def NpTy.cast (t : NpTy) (v : Int) : Int :=
  if t = .f64 then roundF64 v else (v - t.lo) % 2 ^ t.bits + t.lo

end Verif
