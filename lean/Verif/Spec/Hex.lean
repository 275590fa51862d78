import Verif.Spec.Replace
/-!
# Specification of bytes written as hexadecimal digits, and of texts decoded from pieces of them
-/

namespace Verif.Spec

/-- the character `c` is the hexadecimal digit of value `x`, in lower or upper case -/
def HexDigit (c x : Nat) : Prop := (lit "0123456789abcdef")[x]? = some c ∨ (lit "0123456789ABCDEF")[x]? = some c

/-- `Hex s bs`: `s` writes the bytes `bs` as two digits each, with tabs, line ends, form feeds and blanks anywhere between bytes -/
inductive Hex : Str → List Nat → Prop
  | nil : Hex [] []
  | space {c : Nat} {s : Str} {bs : List Nat} : c ∈ lit "\t\n\x0b\x0c\r " → Hex s bs → Hex (c :: s) bs
  | byte {c d x y : Nat} {s : Str} {bs : List Nat} : HexDigit c x → HexDigit d y → Hex s bs → Hex (c :: d :: s) ((16 * x + y) :: bs)

/-- `ByteText mark ps t`: the pieces other than marks are read as bytes, run by run, each run is decoded for itself, and marks are copied -/
inductive ByteText (mark : Str → Prop) : List Str → Str → Prop
  | run {ps : List Str} {bs : List Nat} {t : Str} : (∀ p ∈ ps, ¬ mark p) → Hex ps.flatten bs → Replaced bs t → ByteText mark ps t
  | mark {ps : List Str} {bs : List Nat} {t m : Str} {rest : List Str} {out : Str} : (∀ p ∈ ps, ¬ mark p) → Hex ps.flatten bs → Replaced bs t →
      mark m → ByteText mark rest out → ByteText mark (ps ++ m :: rest) (t ++ m ++ out)

/-- `RunIn mark l r`: `r` is a longest stretch of `l` without marks -/
def RunIn {α : Type} (mark : α → Prop) (l r : List α) : Prop :=
  ∃ a b, l = a ++ r ++ b ∧ (∀ x ∈ r, ¬ mark x) ∧ (∀ x, a.getLast? = some x → mark x) ∧ ∀ x, b.head? = some x → mark x

end Verif.Spec
