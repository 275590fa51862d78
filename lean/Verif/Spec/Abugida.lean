import Verif.Py.Basic
/-! # Specification: Devanagari lines that can be rewritten and restored -/

namespace Verif.Spec
open Verif

/-- `P prev c next` holds at every position of the line: `prev` and `next` are the neighbours, none at the ends -/
def Everywhere (P : Option Nat → Nat → Option Nat → Prop) (line : Str) : Prop :=
  ∀ a c b, line = a ++ c :: b → P a.getLast? c b.head?

/-- Devanagari consonant letters क..ह and क़..य़ -/
def Consonant (c : Nat) : Prop := (0x915 ≤ c ∧ c ≤ 0x939) ∨ (0x958 ≤ c ∧ c ≤ 0x95F)

/-- dependent vowel signs ा..ौ, ॢ, ॣ -/
def VowelSign (c : Nat) : Prop := (0x93E ≤ c ∧ c ≤ 0x94C) ∨ c = 0x962 ∨ c = 0x963

/-- blank, tab, line feed -/
def Blank (c : Nat) : Prop := c = 32 ∨ c = 9 ∨ c = 10

/-- the virama stands between a consonant and another consonant, or between a consonant and the end of a word -/
def ViramaOK (prev : Option Nat) (c : Nat) (next : Option Nat) : Prop :=
  c = 0x94D → (∃ p, prev = some p ∧ Consonant p) ∧ ∀ n, next = some n → Consonant n ∨ Blank n

/-- a vowel sign is not the first character of a word -/
def SignOK (prev : Option Nat) (c : Nat) : Prop := VowelSign c → ∃ p, prev = some p ∧ ¬ Blank p

end Verif.Spec
