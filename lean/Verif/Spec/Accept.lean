import Verif.Model.File
/-! # Specification: accepted tables and headers -/

namespace Verif.Spec
open Verif

/-- the names of the types of the table begin with those of the six reserved types -/
def Reserved6 (tbl : List Ty) : Prop :=
  (tbl.map (·.name)).take 6 = [lit "<pad>", lit "<unk>", lit "<s>", lit "</s>", lit "<cls>", [0x2581]]

/-- the tables that a scheme of kind `k` can be made of -/
def Accepted (k : Kind) (tbl : List Ty) : Prop :=
  match k with
  | .word | .char => Reserved6 tbl ∧ (tbl.map (·.name)).Nodup
  | .bpe => Reserved6 tbl ∧ ∀ t ∈ tbl, t.name ≠ []
  | .clasz | .byte => (tbl.map (·.name)).Nodup

/-- the header of a model file says that the scheme is of kind `k`: by its name or, in old files, by the highest level; negative numbers count from
the end of the list of kinds -/
def Says (h : Header) (k : Kind) : Prop :=
  h.any = true ∧
    ((∃ n, h.scheme = some n ∧ (n, k) ∈ [(lit "char", Kind.char), (lit "word", .word), (lit "bpe", .bpe), (lit "subword", .bpe),
        (lit "class", .clasz), (lit "byte", .byte)]) ∨
      (h.scheme = none ∧ ∃ m, h.maxLevel = some m ∧ (m, k) ∈ [((0 : Int), Kind.char), (1, .bpe), (2, .word), (3, .clasz),
        (-4, .char), (-3, .bpe), (-2, .word), (-1, .clasz)]))

/-- the table of the byte scheme made of no types: the bytes, named by their hexadecimal digits, and two markers -/
def defaultBytes : List Ty :=
  (List.range 256).map (fun b => ⟨(Nat.toDigits 16 b).map Char.toNat, 0, b, -1, []⟩) ++ [⟨lit "<s>", -1, 256, -1, []⟩, ⟨lit "</s>", -1, 257, -1, []⟩]

end Verif.Spec
