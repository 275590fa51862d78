import Verif.Model.TermFreq
/-! # Specification: reading JSON

A reader for the JSON texts made of integers, strings and arrays (RFC 8259).  It accepts every such text, with any white space and all
escapes but surrogate pairs, and some texts that are not JSON (numbers with leading zeros). -/

namespace Verif.Spec
open Verif

/-- value of a hexadecimal digit -/
def hexNum (c : Nat) : Option Nat :=
  if 48 ≤ c ∧ c ≤ 57 then some (c - 48)
  else if 97 ≤ c ∧ c ≤ 102 then some (c - 87)
  else if 65 ≤ c ∧ c ≤ 70 then some (c - 55)
  else none

/-- character after a backslash -/
def unescape (c : Nat) : Option Nat :=
  if c = 34 then some 34 else if c = 92 then some 92 else if c = 47 then some 47 else if c = 98 then some 8
  else if c = 102 then some 12 else if c = 110 then some 10 else if c = 114 then some 13 else if c = 116 then some 9 else none

/-- a string after its opening quote: the characters and the rest of the text -/
def readString : Str → Option (Str × Str)
  | [] => none
  | 34 :: r => some ([], r)
  | 92 :: 117 :: a :: b :: c :: d :: r => match hexNum a, hexNum b, hexNum c, hexNum d with
    | some a, some b, some c, some d => (readString r).map fun p => ((((a * 16 + b) * 16 + c) * 16 + d) :: p.1, p.2)
    | _, _, _, _ => none
  | 92 :: c :: r => match unescape c with
    | some x => (readString r).map fun p => (x :: p.1, p.2)
    | none => none
  | c :: r => if c < 32 then none else (readString r).map fun p => (c :: p.1, p.2)

/-- white space of JSON -/
def skipBlank (s : Str) : Str := s.dropWhile fun c => c = 32 ∨ c = 9 ∨ c = 10 ∨ c = 13

/-- characters of an integer -/
def isNum (c : Nat) : Bool := c = 45 ∨ (48 ≤ c ∧ c ≤ 57)

mutual
/-- a value and the rest of the text -/
def readValue : Nat → Str → Option (JTree × Str)
  | 0, _ => none
  | n + 1, s => match skipBlank s with
    | 34 :: r => (readString r).map fun p => (.str p.1, p.2)
    | 91 :: r => match skipBlank r with
      | 93 :: r => some (.arr [], r)
      | r => (readItems n r).map fun p => (.arr p.1, p.2)
    | r => match pyInt (r.takeWhile isNum) with
      | .ok i => some (.int i, r.dropWhile isNum)
      | .error _ => none
/-- the items of an array up to its end -/
def readItems : Nat → Str → Option (List JTree × Str)
  | 0, _ => none
  | n + 1, s => match readValue n s with
    | none => none
    | some (v, r) => match skipBlank r with
      | 93 :: r => some ([v], r)
      | 44 :: r => (readItems n r).map fun p => (v :: p.1, p.2)
      | _ => none
end

/-- the value of a JSON text -/
def readJson (s : Str) : Option JTree :=
  match readValue (2 * s.length + 2) s with
  | some (v, r) => if skipBlank r = [] then some v else none
  | none => none

end Verif.Spec
