import Verif.Model.Script
import Verif.Spec.Abugida
/-! # Specification: the writing system that the arguments of an `AbugidaLang` describe -/

namespace Verif.Spec
open Verif

/-- a code point is given as a number or as a string of one character -/
def Denotes (v : CodePt) (c : Nat) : Prop := v = .int c ∨ v = .str [c]

/-- the sign of a vowel; none for the inherent vowel -/
def DenotesSign (v : Option CodePt) (f : Option Nat) : Prop := (v = none ∧ f = none) ∨ ∃ u c, v = some u ∧ f = some c ∧ Denotes u c

/-- every code point is given properly -/
def ProperArgs (x : AbArgs) : Prop :=
  (∀ e ∈ x.vowels, (∃ c, Denotes e.1 c) ∧ ∃ f, DenotesSign e.2 f) ∧ (∀ v ∈ x.consonants, ∃ c, Denotes v c) ∧
  (∃ c, Denotes x.implVowel c) ∧ (∃ c, Denotes x.virama c) ∧ ∀ v ∈ x.semi, ∃ c, Denotes v c

/-- `c` is a consonant -/
def IsCons (x : AbArgs) (c : Nat) : Prop := ∃ v ∈ x.consonants, Denotes v c

/-- `c` is a vowel and `f` is its sign, none for the inherent vowel: the last entry counts -/
def SignOf (x : AbArgs) (c : Nat) (f : Option Nat) : Prop :=
  ∃ before k v after, x.vowels = before ++ (k, v) :: after ∧ Denotes k c ∧ DenotesSign v f ∧ ∀ e ∈ after, ¬ Denotes e.1 c

/-- a writing system whose classes of characters are separate: consonants, vowels, signs, the virama, blanks and the marker U+E000 -/
structure Separate (x : AbArgs) : Prop where
  cons_sign : ∀ c v, IsCons x c → ¬ SignOf x v (some c)
  vowel_sign : ∀ c f v, SignOf x c f → ¬ SignOf x v (some c)
  virama : ∀ c, Denotes x.virama c → ¬ IsCons x c ∧ (∀ f, ¬ SignOf x c f) ∧ (∀ v, ¬ SignOf x v (some c)) ∧ ¬ Blank c ∧ c ≠ 0xE000
  other : ∀ c, Blank c ∨ c = 0xE000 → ¬ IsCons x c ∧ (∀ f, ¬ SignOf x c f) ∧ ∀ v, ¬ SignOf x v (some c)
  inherent : ∀ c, Denotes x.implVowel c → SignOf x c none

end Verif.Spec
