import Verif.Py.Basic
/-!
# Specification of tokens

Independent of `split`: a line is a sequence of non-empty whitespace-free tokens separated by non-empty
whitespace gaps, with optional whitespace at both ends.
-/

namespace Verif.Spec
open Verif

/-- The white space of Unicode and ASCII separators: tab, line feed, vertical tab, form feed, carriage return, the four
information separators, space, next line, no-break space, ogham space mark, the quads and fixed-width spaces, line and paragraph
separator, narrow no-break space, medium mathematical space, ideographic space. -/
def whiteSpace : List Nat := [0x9, 0xA, 0xB, 0xC, 0xD, 0x1C, 0x1D, 0x1E, 0x1F, 0x20, 0x85, 0xA0, 0x1680, 0x2000, 0x2001, 0x2002, 0x2003,
  0x2004, 0x2005, 0x2006, 0x2007, 0x2008, 0x2009, 0x200A, 0x2028, 0x2029, 0x202F, 0x205F, 0x3000]

/-- is white space -/
def isWhite (c : Nat) : Bool := whiteSpace.contains c

/-- All characters are whitespace. -/
def AllSpace (s : Str) : Prop := ∀ c ∈ s, isWhite c = true

/-- A token: non-empty, no whitespace. -/
def IsToken (w : Str) : Prop := w ≠ [] ∧ ∀ c ∈ w, isWhite c = false

/-- `Tokens s ws`: the tokens of the line `s` are `ws`. -/
inductive Tokens : Str → List Str → Prop where
  /-- a blank line has no tokens -/
  | blank {g : Str} : AllSpace g → Tokens g []
  /-- one token with optional whitespace around -/
  | last {g w h : Str} : AllSpace g → IsToken w → AllSpace h → Tokens (g ++ w ++ h) [w]
  /-- a token, then a gap, then the rest -/
  | cons {g w r : Str} {c : Nat} {ws : List Str} :
      AllSpace g → IsToken w → isWhite c = true → Tokens r ws → ws ≠ [] → Tokens (g ++ w ++ c :: r) (w :: ws)

end Verif.Spec
