import Verif.Props.Length
import Verif.Props.IoShrink
/-!
# Property C128: the encoding of joined lines
-/

namespace Verif
open Spec

/-- C128, words: the encoding of two lines in one is the two encodings in one -/
theorem C128_word {tbl : List Ty} {s : Scheme} (hs : Scheme.make .word tbl = .ok s) {l1 l2 : Str} {a b : List Str} (h1 : Tokens l1 a) (h2 : Tokens l2 b) :
    ∃ i1 i2, s.encode l1 = .ok i1 ∧ s.encode l2 = .ok i2 ∧ ∀ l, Tokens l (a ++ b) → s.encode l = .ok (i1 ++ i2) := by
  obtain ⟨_, k2, k3, _, _⟩ := make_word_ok hs
  have e : ∀ {l ws}, Tokens l ws → s.encode l = .ok (ws.map s.idOf) := by
    intro l ws hl
    simp only [Scheme.encode, Scheme.encodeStr, k2, split_of_tokens hl]
    exact idsOf_eq (by rw [k2]; decide) k3 _
  exact ⟨_, _, e h1, e h2, fun l hl => by rw [e hl, List.map_append]⟩

theorem intercalate_join (sep : Str) {a b : List Str} (ha : a ≠ []) (hb : b ≠ []) :
    List.intercalate sep (a ++ b) = List.intercalate sep a ++ sep ++ List.intercalate sep b := by
  induction a with
  | nil => exact absurd rfl ha
  | cons x a ih => cases a with
    | nil =>
      obtain ⟨y, b, rfl⟩ := List.exists_cons_of_ne_nil hb
      simp [List.intercalate_cons_cons]
    | cons y a =>
      rw [List.cons_append, List.cons_append, List.intercalate_cons_cons, ← List.cons_append, ih (by simp), List.intercalate_cons_cons]
      simp

/-- C128, characters: with the id 5 of the space between the two encodings, if both lines have words -/
theorem C128_char {tbl : List Ty} {s : Scheme} (hs : Scheme.make .char tbl = .ok s) {l1 l2 : Str} {a b : List Str} (h1 : Tokens l1 a) (h2 : Tokens l2 b)
    (ha : a ≠ []) (hb : b ≠ []) :
    ∃ i1 i2, s.encode l1 = .ok i1 ∧ s.encode l2 = .ok i2 ∧ ∀ l, Tokens l (a ++ b) → s.encode l = .ok (i1 ++ 5 :: i2) := by
  obtain ⟨k1, k2, k3, _, k5⟩ := make_char_ok hs
  have e : ∀ {l ws}, Tokens l ws → s.encode l = .ok ((List.intercalate [SP] ws).map fun c => s.idOf [c]) := by
    intro l ws hl
    simp only [Scheme.encode, Scheme.encodeStr, k2, split_of_tokens hl, join_eq_intercalate]
    rw [idsOf_eq (by rw [k2]; decide) k3, List.map_map]
    rfl
  refine ⟨_, _, e h1, e h2, fun l hl => ?_⟩
  rw [e hl, intercalate_join _ ha hb]
  simp [idOf_space (s := s) (by rw [k1]; exact k5)]

/-- C128, BPE: if the marker U+2581 is only at the ends of names, as in learned vocabularies, and both lines have words -/
theorem C128_bpe {tbl : List Ty} {s : Scheme} (hs : Scheme.make .bpe tbl = .ok s) (hi : Indexed tbl) (hm : ∀ n ∈ names tbl, 0x2581 ∉ n.dropLast)
    {l1 l2 : Str} {a b : List Str} (h1 : Tokens l1 a) (h2 : Tokens l2 b) (ha : a ≠ []) (hb : b ≠ []) :
    ∃ i1 i2, s.encode l1 = .ok i1 ∧ s.encode l2 = .ok i2 ∧ ∀ l, Tokens l (a ++ b) → s.encode l = .ok (i1 ++ i2) := by
  obtain ⟨j1, e1, e2⟩ := C81_table hs hi hm h1 ha
  obtain ⟨j2, e3, e4⟩ := C81_table hs hi hm h2 hb
  refine ⟨_, _, e2, e4, fun l hl => ?_⟩
  obtain ⟨j, e5, e6⟩ := C81_table hs hi hm hl (by simp [ha])
  have huniq : ∀ {ws : List Str} {x y : List (List Int)}, List.Forall₂ (fun w ids => s.encode w = .ok ids) ws x →
      List.Forall₂ (fun w ids => s.encode w = .ok ids) ws y → x = y := by
    intro ws x y hx
    induction hx generalizing y with
    | nil => intro h; cases h; rfl
    | cons h _ ih =>
      intro h'
      cases h' with
      | cons g gs =>
        rw [h] at g
        cases g
        rw [ih gs]
  rw [e6, huniq e5 (List.rel_append e1 e3), List.flatten_append]

/-- C128, BPE as learned from any text without the marker, with any options -/
theorem C128_learned {ord : Nat → List Nat → List Nat} (hord : ∀ i l, (ord i l).Perm l) {A : Acc} {data : List Str} {toks : List (List Str)}
    (ht : List.Forall₂ Tokens data toks) (hsp : ∀ ws ∈ toks, ∀ w ∈ ws, 0x2581 ∉ w) {vs mf minEv : Int} {cov : Option A.F}
    (hv : ∀ c, cov = some c → A.valid c = true) {vocab : List Ty} (h : bpeLearn ord A data vs mf cov minEv = .ok vocab) :
    ∃ s, Scheme.make .bpe vocab = .ok s ∧ ∀ l1 l2 a b, Tokens l1 a → Tokens l2 b → a ≠ [] → b ≠ [] →
      ∃ i1 i2, s.encode l1 = .ok i1 ∧ s.encode l2 = .ok i2 ∧ ∀ l, Tokens l (a ++ b) → s.encode l = .ok (i1 ++ i2) := by
  obtain ⟨s, hs, _⟩ := C19_bpe_accepted hord hv h
  exact ⟨s, hs, fun l1 l2 a b h1 h2 ha hb => C128_bpe hs (C22_text hord hv h).1 (learned_markers hord ht hsp hv h) h1 h2 ha hb⟩

theorem idsOf_append {s : Scheme} : ∀ {p q : List Str} {i j : List Int}, s.idsOf p = .ok i → s.idsOf q = .ok j → s.idsOf (p ++ q) = .ok (i ++ j)
  | [], _, _, _, h1, h2 => by
    cases h1
    exact h2
  | x :: p, q, i, j, h1, h2 => by
    cases hp : s.idsOf p with
    | error e =>
      rw [Scheme.idsOf, hp] at h1
      split at h1 <;> cases h1
    | ok is =>
      have h3 := idsOf_append hp h2
      rw [List.cons_append, Scheme.idsOf, h3]
      rw [Scheme.idsOf, hp] at h1
      cases hk : s.kind <;> cases ho : Dict.get? s.s2i x <;> rw [hk, ho] at h1 <;> simp at h1 <;> subst h1 <;> rfl

/-- C128, bytes: texts put together without anything between, if both can be encoded -/
theorem C128_byte {tbl : List Ty} {s : Scheme} (hs : Scheme.make .byte tbl = .ok s) {l1 l2 : Str} {i1 i2 : List Int} (h1 : s.encode l1 = .ok i1) (h2 : s.encode l2 = .ok i2) :
    s.encode (l1 ++ l2) = .ok (i1 ++ i2) := by
  obtain ⟨_, k2, _, _⟩ := mkInvertible_ok hs
  simp only [Scheme.encode, Scheme.encodeStr, k2] at h1 h2 ⊢
  cases e1 : utf8Encode l1 with
  | error e => rw [e1] at h1; cases h1
  | ok b1 =>
    cases e2 : utf8Encode l2 with
    | error e => rw [e2] at h2; cases h2
    | ok b2 =>
      rw [e1] at h1
      rw [e2] at h2
      rw [utf8Encode_append e1 e2]
      simp only [List.map_append]
      exact idsOf_append h1 h2

-- two lines in one, with a model that merges within words
example : (match bpeLearn ordId accExact [lit "ab ab b cd"] 0 1 none 2 with
    | .error _ => false
    | .ok v => match Scheme.make .bpe v with
      | .error _ => false
      | .ok s => decide (s.encode (lit "ab x") = .ok [11, 1, 5]) && decide (s.encode (lit "b") = .ok [10]) &&
          decide (s.encode (lit "ab x b") = .ok [11, 1, 5, 10])) = true := by decide +kernel

end Verif
