import Verif.Spec.Table
import Mathlib.Data.List.Forall2
/-!
# Specification of BPE learning

A corpus is a list of weighted sequences of symbols.  BPE repeatedly replaces the most frequent pair of adjacent symbols by
a new symbol.  Nothing here refers to the linked lists, index sets or heaps of the implementation.
-/

namespace Verif.Spec

/-- weighted sequences -/
abbrev Corpus := List (List Nat × Int)

/-- number of positions `i` with `(s[i], s[i+1]) = p` -/
def pairOcc (p : Nat × Nat) : List Nat → Int
  | x :: y :: r => (if (x, y) = p then 1 else 0) + pairOcc p (y :: r)
  | _ => 0

/-- weighted number of occurrences of a pair -/
def pairCount (C : Corpus) (p : Nat × Nat) : Int := (C.map fun s => s.2 * pairOcc p s.1).sum

/-- `t` is `s` with some non-overlapping occurrences of `a b` replaced by `r` -/
inductive Replaces (a b r : Nat) : List Nat → List Nat → Prop
  | nil : Replaces a b r [] []
  | keep (x : Nat) {s t : List Nat} : Replaces a b r s t → Replaces a b r (x :: s) (x :: t)
  | pair {s t : List Nat} : Replaces a b r s t → Replaces a b r (a :: b :: s) (r :: t)

/-- `C'` is `C` with the pair `p` replaced by `r` everywhere: no occurrence is left -/
def Merged (p : Nat × Nat) (r : Nat) (C C' : Corpus) : Prop :=
  List.Forall₂ (fun s t => s.2 = t.2 ∧ Replaces p.1 p.2 r s.1 t.1 ∧ pairOcc p t.1 = 0) C C'

/-- `p ≤ q` lexicographically -/
def pairLe (p q : Nat × Nat) : Prop := p.1 < q.1 ∨ (p.1 = q.1 ∧ p.2 ≤ q.2)

/-- `p` is the most frequent pair of `C`, the smallest one on ties -/
def IsBest (C : Corpus) (p : Nat × Nat) : Prop :=
  0 < pairCount C p ∧ ∀ q, pairCount C q < pairCount C p ∨ (pairCount C q = pairCount C p ∧ pairLe p q)

/-- the type added for the pair `p` -/
def mergedType (vocab : List Ty) (ta tb : Ty) (level f : Int) : Ty :=
  { name := ta.name ++ tb.name, level := level, idx := vocab.length, freq := f, kids := [ta, tb] }

/-- `Run C v n C' v'`: `n` rounds of BPE lead from the corpus `C` and the table `v` to `C'` and `v'`.  Each round replaces
the best pair `p`, whose count is at least `minEv`, by the new symbol `|v|`, and adds the type with the concatenated name,
that count and the two parts. -/
inductive Run (minEv level : Int) : Corpus → List Ty → Nat → Corpus → List Ty → Prop
  | refl (C : Corpus) (v : List Ty) : Run minEv level C v 0 C v
  | step {C C1 C' : Corpus} {v v' : List Ty} {n : Nat} {p : Nat × Nat} {ta tb : Ty} : IsBest C p → minEv ≤ pairCount C p →
      v[p.1]? = some ta → v[p.2]? = some tb → Merged p v.length C C1 →
      Run minEv level C1 (v ++ [mergedType v ta tb level (pairCount C p)]) n C' v' →
      Run minEv level C v (n + 1) C' v'

/-! ## Corpora of words -/

/-- the symbol of a character: the position of the type with that one-character name, else 1, the position of `<unk>` -/
def CodeOf (v : List Ty) (c i : Nat) : Prop := (∃ t, v[i]? = some t ∧ t.name = [c]) ∨ ([c] ∉ names v ∧ i = 1)

/-- a word with its frequency becomes the sequence of the symbols of its characters and of the end marker U+2581 -/
def CodedWord (v : List Ty) (p : Str × Int) (s : List Nat × Int) : Prop :=
  s.2 = p.2 ∧ List.Forall₂ (CodeOf v) (p.1 ++ [0x2581]) s.1

/-- weighted number of occurrences of a character in the words with the end marker -/
def chCount (tf : List (Str × Int)) (c : Nat) : Int := (tf.map fun p => p.2 * ((p.1 ++ [0x2581]).count c : Int)).sum

end Verif.Spec
