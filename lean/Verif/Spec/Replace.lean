import Verif.Py.Basic
/-!
# Specification of decoding with replacement characters

Bytes that are not UTF-8 are replaced as the Unicode standard recommends ("maximal subparts", section 3.9): the longest beginning of some
character's encoding, or one byte if there is none, becomes one U+FFFD.
-/

namespace Verif.Spec

/-- the UTF-8 encoding of a character, by Lean's own library -/
def charBytes (c : Char) : List Nat := (String.utf8EncodeChar c).map UInt8.toNat

/-- `Replaced bs t`: decoding `bs` gives `t` -/
inductive Replaced : List Nat → Str → Prop
  | nil : Replaced [] []
  | char (c : Char) {r : List Nat} {t : Str} : Replaced r t → Replaced (charBytes c ++ r) (c.toNat :: t)
  | bad {u r : List Nat} {t : Str} : u ≠ [] → (∀ c : Char, ¬ charBytes c <+: u ++ r) → (u.length = 1 ∨ ∃ c : Char, u <+: charBytes c) →
      (∀ v, v <+: u ++ r → (∃ c : Char, v <+: charBytes c) → v.length ≤ u.length) → Replaced r t → Replaced (u ++ r) (0xFFFD :: t)

/-- the lines of a text, with their line feeds -/
def LfLines (text : Str) (ls : List Str) : Prop :=
  ls.flatten = text ∧ (∀ l ∈ ls, l ≠ [] ∧ 10 ∉ l.dropLast) ∧ ∀ l ∈ ls.dropLast, l.getLast? = some 10

end Verif.Spec
