import Verif.Py.Basic
/-!
# UTF-8

Model of `str.encode(line, 'utf-8')` and of `str(bytes, encoding='utf-8', errors='replace')` as called by
`ByteScheme` (nlcodec/codec.py:585-590), and of `bytes.fromhex`.  These are CPython built-ins; the model follows
the UTF-8 definition (surrogates are not encodable: UnicodeEncodeError).
-/

namespace Verif

/-- UTF-8 bytes of one code point; surrogates and out-of-range values raise. -/
def utf8Char (c : Nat) : Py (List Nat) :=
  if c < 0x80 then .ok [c]
  else if c < 0x800 then .ok [0xC0 + c / 64, 0x80 + c % 64]
  else if 0xD800 ≤ c ∧ c ≤ 0xDFFF then .error .unicode
  else if c < 0x10000 then .ok [0xE0 + c / 4096, 0x80 + c / 64 % 64, 0x80 + c % 64]
  else if c < 0x110000 then .ok [0xF0 + c / 262144, 0x80 + c / 4096 % 64, 0x80 + c / 64 % 64, 0x80 + c % 64]
  else .error .unicode

/-- `str.encode(s, 'utf-8')` -/
def utf8Encode : Str → Py (List Nat)
  | [] => .ok []
  | c :: cs => match utf8Char c, utf8Encode cs with
    | .ok a, .ok b => .ok (a ++ b)
    | .error e, _ => .error e
    | .ok _, .error e => .error e

/-- continuation byte -/
def isCont (b : Nat) : Bool := 0x80 ≤ b && b ≤ 0xBF

/-- Length of the maximal ill-formed subpart and, if well-formed, the decoded code point and rest
(Unicode table 3-7; CPython replaces each maximal subpart by one U+FFFD). -/
def utf8Step : List Nat → Option (Nat × List Nat) × List Nat
  | [] => (none, [])
  | b0 :: r =>
    if b0 < 0x80 then (some (b0, r), r)
    else if 0xC2 ≤ b0 ∧ b0 ≤ 0xDF then
      match r with
      | b1 :: r1 => if isCont b1 then (some ((b0 - 0xC0) * 64 + (b1 - 0x80), r1), r1) else (none, r)
      | [] => (none, r)
    else if 0xE0 ≤ b0 ∧ b0 ≤ 0xEF then
      match r with
      | b1 :: r1 =>
        if (if b0 = 0xE0 then 0xA0 else 0x80) ≤ b1 ∧ b1 ≤ (if b0 = 0xED then 0x9F else 0xBF) then
          match r1 with
          | b2 :: r2 =>
            if isCont b2 then (some ((b0 - 0xE0) * 4096 + (b1 - 0x80) * 64 + (b2 - 0x80), r2), r2) else (none, r1)
          | [] => (none, r1)
        else (none, r)
      | [] => (none, r)
    else if 0xF0 ≤ b0 ∧ b0 ≤ 0xF4 then
      match r with
      | b1 :: r1 =>
        if (if b0 = 0xF0 then 0x90 else 0x80) ≤ b1 ∧ b1 ≤ (if b0 = 0xF4 then 0x8F else 0xBF) then
          match r1 with
          | b2 :: r2 =>
            if isCont b2 then
              match r2 with
              | b3 :: r3 =>
                if isCont b3 then
                  (some ((b0 - 0xF0) * 262144 + (b1 - 0x80) * 4096 + (b2 - 0x80) * 64 + (b3 - 0x80), r3), r3)
                else (none, r2)
              | [] => (none, r2)
            else (none, r1)
          | [] => (none, r1)
        else (none, r)
      | [] => (none, r)
    else (none, r)

/-- Decoding loop with fuel = number of bytes (each step consumes at least one byte). -/
def utf8DecAux : Nat → List Nat → Str
  | 0, _ => []
  | _ + 1, [] => []
  | k + 1, b :: bs => match utf8Step (b :: bs) with
    | (some (c, r), _) => c :: utf8DecAux k r
    | (none, r) => 0xFFFD :: utf8DecAux k r

/-- `str(bytes, encoding='utf-8', errors='replace')` -/
def utf8Decode (bs : List Nat) : Str := utf8DecAux bs.length bs

/-- value of a hexadecimal digit character -/
def hexVal (c : Nat) : Option Nat :=
  if 48 ≤ c ∧ c ≤ 57 then some (c - 48)
  else if 97 ≤ c ∧ c ≤ 102 then some (c - 87)
  else if 65 ≤ c ∧ c ≤ 70 then some (c - 55)
  else none

/-- ASCII whitespace skipped by `bytes.fromhex` between byte pairs -/
def isAsciiSpace (c : Nat) : Bool := (9 ≤ c && c ≤ 13) || c == 32

/-- `bytes.fromhex(s)`: pairs of hex digits, whitespace allowed between pairs, otherwise ValueError. -/
def fromHex : Str → Py (List Nat)
  | [] => .ok []
  | [c] => if isAsciiSpace c then .ok [] else .error .value
  | c :: d :: r =>
    if isAsciiSpace c then fromHex (d :: r)
    else match hexVal c, hexVal d with
      | some x, some y => match fromHex r with
        | .ok bs => .ok ((x * 16 + y) :: bs)
        | .error e => .error e
      | _, _ => .error .value

/-- one lower-case hexadecimal digit -/
def hexDigit (n : Nat) : Nat := if n < 10 then 48 + n else 87 + n

/-- `f'{code:x}'` (nlcodec/codec.py:582-583) for `code < 256`: no zero padding. -/
def codeToStr (code : Nat) : Str :=
  if code < 16 then [hexDigit code] else [hexDigit (code / 16), hexDigit (code % 16)]

end Verif
