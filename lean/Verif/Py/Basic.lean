/-!
# Python fragment: exceptions, strings, lists

Only the parts of Python's standard semantics that the modelled nlcodec code relies on.
-/

namespace Verif

/-- The exception classes that the modelled code can raise.  `fuel` is not a Python exception: it marks a
model loop that ran out of fuel (theorems show it never happens).  `noneKid` is not one either, see
`Verif.readVocab`. -/
inductive Exc where
  | assertion | index | key | value | type | attr | unicode | zeroDiv | fileNotFound | exception
  | stopIteration | fuel | noneKid | recursion
  deriving DecidableEq, Repr

/-- A Python computation that either returns or raises. -/
abbrev Py (α : Type) := Except Exc α

instance {α : Type} [DecidableEq α] : DecidableEq (Py α) := fun a b =>
  match a, b with
  | .ok x, .ok y => if h : x = y then isTrue (by rw [h]) else isFalse (by intro e; cases e; exact h rfl)
  | .error x, .error y => if h : x = y then isTrue (by rw [h]) else isFalse (by intro e; cases e; exact h rfl)
  | .ok _, .error _ => isFalse (by intro e; cases e)
  | .error _, .ok _ => isFalse (by intro e; cases e)

/-- `assert c`. -/
def pyAssert (c : Bool) : Py Unit := if c then .ok () else .error .assertion

/-- A Python `str`: the list of its code points (surrogates allowed, as in Python). -/
abbrev Str := List Nat

/-- Literals: code points of a Lean string. -/
def lit (s : String) : Str := s.toList.map Char.toNat

/-- `c.isspace()` for one code point: the characters at which `str.split()` splits and which `str.strip()` removes. -/
def isSpace (c : Nat) : Bool :=
  (9 ≤ c && c ≤ 13) || (0x1c ≤ c && c ≤ 0x20) || c == 0x85 || c == 0xa0 || c == 0x1680 ||
  (0x2000 ≤ c && c ≤ 0x200a) || c == 0x2028 || c == 0x2029 || c == 0x202f || c == 0x205f || c == 0x3000

/-- U+2581, `Reseved.SPACE_TOK` (nlcodec/codec.py:38). -/
def SP : Nat := 0x2581

/-- Put `c` in front of the first piece. -/
def consHead (c : Nat) : List Str → List Str
  | [] => [[c]]
  | w :: ws => (c :: w) :: ws

/-- `s.split(sep)` for a one-character separator (given as a predicate): never empty. -/
def splitOn (p : Nat → Bool) : Str → List Str
  | [] => [[]]
  | c :: cs => if p c then [] :: splitOn p cs else consHead c (splitOn p cs)

/-- `s.split()`: split at whitespace runs, no empty pieces. -/
def split (s : Str) : List Str := (splitOn isSpace s).filter (fun w => !w.isEmpty)

/-- `sep.join(ws)`. -/
def join (sep : Str) : List Str → Str
  | [] => []
  | [w] => w
  | w :: ws => w ++ sep ++ join sep ws

/-- `s.rstrip(chars)` with the character set given as a predicate. -/
def rstripP (p : Nat → Bool) (s : Str) : Str := (s.reverse.dropWhile p).reverse

/-- `s.strip()`. -/
def strip (s : Str) : Str := rstripP isSpace (s.dropWhile isSpace)

/-- `s.replace(a, b)` for one-character strings. -/
def replaceCh (a b : Nat) (s : Str) : Str := s.map fun c => if c = a then b else c

/-- `s.startswith(p)`. -/
def startsWith (p s : Str) : Bool := p.isPrefixOf s

/-- `lst[i]` with Python's negative indices. -/
def pyIndex {α : Type} (l : List α) (i : Int) : Py α :=
  let j := if i < 0 then i + l.length else i
  if j < 0 then .error .index
  else match l[j.toNat]? with
    | some x => .ok x
    | none => .error .index

/-! ## Integers as text -/

/-- Decimal digits, most significant first (fuel `n+1` suffices). -/
def decAux : Nat → Nat → Str
  | 0, _ => []
  | k + 1, n => if n < 10 then [48 + n] else decAux k (n / 10) ++ [48 + n % 10]

/-- `str(n)` for `n ≥ 0`. -/
def natStr (n : Nat) : Str := decAux (n + 1) n

/-- `str(i)`. -/
def intStr (i : Int) : Str := if i < 0 then 45 :: natStr i.natAbs else natStr i.natAbs

/-- Value of an ASCII digit string; `none` if there is another character. -/
def digitsVal : Str → Nat → Option Nat
  | [], acc => some acc
  | c :: cs, acc => if 48 ≤ c ∧ c ≤ 57 then digitsVal cs (acc * 10 + (c - 48)) else none

/-- white space around a number: `int` does not strip the information separators U+001C to U+001F, which `str.strip()` does -/
def isIntSpace (c : Nat) : Bool := isSpace c && !(0x1c ≤ c && c ≤ 0x1f)

/-- the digits zero of Unicode (category Nd, Unicode 14); the other digits of each script follow -/
def digitZeros : List Nat := [0x30, 0x660, 0x6f0, 0x7c0, 0x966, 0x9e6, 0xa66, 0xae6, 0xb66, 0xbe6, 0xc66, 0xce6, 0xd66, 0xde6, 0xe50, 0xed0, 0xf20,
  0x1040, 0x1090, 0x17e0, 0x1810, 0x1946, 0x19d0, 0x1a80, 0x1a90, 0x1b50, 0x1bb0, 0x1c40, 0x1c50, 0xa620, 0xa8d0, 0xa900, 0xa9d0, 0xa9f0, 0xaa50,
  0xabf0, 0xff10, 0x104a0, 0x10d30, 0x11066, 0x110f0, 0x11136, 0x111d0, 0x112f0, 0x11450, 0x114d0, 0x11650, 0x116c0, 0x11730, 0x118e0, 0x11950,
  0x11c50, 0x11d50, 0x11da0, 0x16a60, 0x16ac0, 0x16b50, 0x1d7ce, 0x1d7d8, 0x1d7e2, 0x1d7ec, 0x1d7f6, 0x1e140, 0x1e2f0, 0x1e950, 0x1fbf0]

/-- value of a decimal digit -/
def digitVal (c : Nat) : Option Nat := (digitZeros.find? fun z => z ≤ c && c ≤ z + 9).map (c - ·)

/-- value of digits with single underscores between them; `last` says that the character before was a digit -/
def uintVal : Str → Nat → Bool → Option Nat
  | [], acc, last => if last then some acc else none
  | c :: cs, acc, last =>
    if c = 95 then (if last then uintVal cs acc false else none)
    else match digitVal c with
      | some d => uintVal cs (acc * 10 + d) true
      | none => none

/-- `int(s)`: optional surrounding white space, optional sign, decimal digits with single underscores between them, else `ValueError`.
Simplification: the limit of 4300 digits of Python 3.11 and later is left out. -/
def pyInt (s : Str) : Py Int :=
  match rstripP isIntSpace (s.dropWhile isIntSpace) with
  | 45 :: ds => match uintVal ds 0 false with
      | some n => .ok (-(n : Int))
      | none => .error .value
  | 43 :: ds => match uintVal ds 0 false with
      | some n => .ok (n : Int)
      | none => .error .value
  | ds => match uintVal ds 0 false with
      | some n => .ok (n : Int)
      | none => .error .value

/-! ## Dictionaries (insertion ordered) -/

/-- A Python `dict`: association list in insertion order, keys distinct. -/
abbrev Dict (κ υ : Type) := List (κ × υ)

namespace Dict
variable {κ υ : Type} [DecidableEq κ]

/-- `d.get(k)`. -/
def get? : Dict κ υ → κ → Option υ
  | [], _ => none
  | (k', v) :: d, k => if k' = k then some v else get? d k

/-- `k in d`. -/
def mem (d : Dict κ υ) (k : κ) : Bool := (get? d k).isSome

/-- `d[k] = v`: overwrite in place or append. -/
def set : Dict κ υ → κ → υ → Dict κ υ
  | [], k, v => [(k, v)]
  | (k', v') :: d, k, v => if k' = k then (k', v) :: d else (k', v') :: set d k v

/-- `del d[k]` / the remaining dict after `d.pop(k)`. -/
def erase : Dict κ υ → κ → Dict κ υ
  | [], _ => []
  | (k', v') :: d, k => if k' = k then d else (k', v') :: erase d k

/-- `d.keys()`. -/
def keys (d : Dict κ υ) : List κ := d.map (·.1)

/-- `d.values()`. -/
def values (d : Dict κ υ) : List υ := d.map (·.2)

/-- `d[k] += n` on a `Counter`/`defaultdict(int)`. -/
def incr (d : Dict κ Int) (k : κ) (n : Int) : Dict κ Int := set d k ((get? d k).getD 0 + n)

/-- `Counter.update(iterable)`. -/
def count (d : Dict κ Int) (xs : List κ) : Dict κ Int := xs.foldl (fun d x => incr d x 1) d

end Dict

end Verif
