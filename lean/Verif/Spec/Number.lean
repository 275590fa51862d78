import Verif.Spec.Text
import Mathlib.Data.List.Forall2
/-!
# Specification: texts that denote whole numbers

As in the documentation of Python's `int`: white space at both ends, an optional sign, decimal digits of any script with single underscores between
them.
-/

namespace Verif.Spec
open Verif

/-- the character `c` is a decimal digit of value `d`: the tenth at most after a digit zero of Unicode -/
def Digit (c d : Nat) : Prop := d ≤ 9 ∧ ∃ z ∈ digitZeros, c = z + d

/-- a text of digits and single underscores between them, and its value -/
def Number (s : Str) (n : Nat) : Prop :=
  ∃ (groups : List Str) (ds : List Nat), groups ≠ [] ∧ (∀ g ∈ groups, g ≠ []) ∧ s = List.intercalate [95] groups ∧
    List.Forall₂ Digit groups.flatten ds ∧ n = ds.foldl (fun a d => 10 * a + d) 0

/-- white space that may surround a number: without the information separators -/
def NumSpace (s : Str) : Prop := ∀ c ∈ s, isWhite c = true ∧ ¬ (0x1C ≤ c ∧ c ≤ 0x1F)

/-- the text `s` denotes the number `i` -/
def IntText (s : Str) (i : Int) : Prop :=
  ∃ (a sign body b : Str) (n : Nat), s = a ++ sign ++ body ++ b ∧ NumSpace a ∧ NumSpace b ∧ Number body n ∧
    (sign = [] ∧ i = n ∨ sign = [43] ∧ i = n ∨ sign = [45] ∧ i = -n)

end Verif.Spec
