import Verif.Spec.Number
import Verif.Spec.Lines
import Verif.Model.Types
/-! # Specification: vocabulary files and frequency files -/

namespace Verif.Spec
open Verif

/-- `s` is the text `l` without the white space at both ends -/
def Trimmed (l s : Str) : Prop :=
  ∃ a b, l = a ++ s ++ b ∧ AllSpace a ∧ AllSpace b ∧ (∀ c, s.head? = some c → isWhite c = false) ∧ ∀ c, s.getLast? = some c → isWhite c = false

/-- entry number `k` of a table of `n` rows, of which `done` are read; a negative number counts from the end -/
def KidAt (n : Nat) (done : List Ty) (k : Int) (t : Ty) : Prop := ∃ i : Nat, (k = i ∨ k < 0 ∧ n + k = i) ∧ done[i]? = some t

/-- `line` is the row of type `t` in a table of `n` rows, after the rows of the types `done`: four columns or more, separated by tabs, with the index,
the name, the level and the frequency; the fifth column, if there is one, has the numbers of the kids -/
def Row (n : Nat) (done : List Ty) (line : Str) (t : Ty) : Prop :=
  ∃ (c0 c2 c3 : Str) (more : List Str), Trimmed line (List.intercalate [9] (c0 :: t.name :: c2 :: c3 :: more)) ∧
    (∀ c ∈ c0 :: t.name :: c2 :: c3 :: more, 9 ∉ c) ∧ IntText c0 t.idx ∧ t.idx = done.length ∧ IntText c2 t.level ∧ IntText c3 t.freq ∧
    ∃ (ws : List Str) (ks : List Int), Tokens (more.head?.getD []) ws ∧ List.Forall₂ IntText ws ks ∧ List.Forall₂ (KidAt n done) ks t.kids

/-- the lines are the rows of the table -/
def RowsOf (ls : List Str) (tbl : List Ty) : Prop :=
  tbl.length = ls.length ∧ ∀ i line t, ls[i]? = some line → tbl[i]? = some t → Row ls.length (tbl.take i) line t

/-- a line of a frequency file: the term and its frequency, separated by a tab -/
def FreqRow (line : Str) (p : Str × Int) : Prop := ∃ t f, line = t ++ 9 :: f ∧ 9 ∉ t ∧ 9 ∉ f ∧ Trimmed t p.1 ∧ IntText f p.2

end Verif.Spec
