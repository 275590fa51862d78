import Verif.Lemmas.Replace
/-! # Decoding that leaves out what is not UTF-8 -/

namespace Verif
open Spec

/-- `Skipped bs t`: decoding `bs` gives `t`; what `Replaced` replaces is left out -/
inductive Spec.Skipped : List Nat → Str → Prop
  | nil : Skipped [] []
  | char (c : Char) {r : List Nat} {t : Str} : Skipped r t → Skipped (charBytes c ++ r) (c.toNat :: t)
  | bad {u r : List Nat} {t : Str} : u ≠ [] → (∀ c : Char, ¬ charBytes c <+: u ++ r) → (u.length = 1 ∨ ∃ c : Char, u <+: charBytes c) →
      (∀ v, v <+: u ++ r → (∃ c : Char, v <+: charBytes c) → v.length ≤ u.length) → Skipped r t → Skipped (u ++ r) t

theorem skipped_dec : ∀ (k : Nat) (bs : List Nat), bs.length ≤ k → Skipped bs (utf8SkipAux k bs)
  | 0, bs, h => by
    have : bs = [] := List.length_eq_zero_iff.1 (by omega)
    subst this; exact .nil
  | k + 1, [], _ => .nil
  | k + 1, b :: bs, h => by
    rw [utf8SkipAux]
    rcases hs : utf8Step (b :: bs) with ⟨_ | ⟨c, r⟩, r'⟩
    · obtain ⟨u, h1, h2, h3, h4, _⟩ := utf8Step_bad hs
      have hl := congrArg List.length h1
      have := List.length_pos_iff.2 h2
      simp only [List.length_cons, List.length_append] at hl h
      dsimp only
      have hn := step_none_char hs
      rw [h1] at hn h4 ⊢
      refine .bad h2 hn ?_ ?_ (skipped_dec k r' (by omega))
      · exact h3.imp id char_of_pending
      · rintro v hv ⟨c, s, hc⟩
        by_cases hv0 : v = []
        · subst hv0; simp
        by_cases hs0 : s = []
        · subst hs0
          rw [List.append_nil] at hc
          exact absurd (hc ▸ hv) (hn c)
        · exact h4 v hv (pending_of_char hc.symm hv0 hs0)
    · obtain ⟨x, hx, h1, h2⟩ := utf8Step_some hs
      obtain ⟨d, rfl, rfl⟩ := exists_char hx
      have hl := congrArg List.length h1
      have := List.length_pos_iff.2 h2
      simp only [List.length_cons, List.length_append] at hl h
      dsimp only
      rw [h1]
      exact .char d (skipped_dec k r (by omega))

theorem Spec.Skipped.unique {bs : List Nat} {t : Str} (h : Skipped bs t) : ∀ k, bs.length ≤ k → utf8SkipAux k bs = t := by
  induction h with
  | nil => intro k _; cases k <;> rfl
  | @char c r t hr ih =>
    intro k hk
    have hne : charBytes c ≠ [] := by
      obtain ⟨x, hx, h2, _⟩ := utf8Char_ok (utf8Char_scalar (utf8Char_bytes c))
      rw [utf8Char_bytes] at hx; cases hx; exact h2
    have hpos := List.length_pos_iff.2 hne
    have hs := utf8Step_char (utf8Char_bytes c) r
    rw [List.length_append] at hk
    match k, charBytes c, hne, hs, hpos, hk with
    | 0, b :: x, _, _, _, hk => simp at hk
    | k + 1, b :: x, _, hs, _, hk =>
      rw [List.cons_append] at hs ⊢
      rw [utf8SkipAux, hs]
      dsimp only
      rw [ih k (by simp only [List.length_cons] at hk; omega)]
  | @bad u r t hu hn h1 hmax hr ih =>
    intro k hk
    obtain ⟨b, x, rfl⟩ := List.exists_cons_of_ne_nil hu
    rw [List.length_append] at hk
    match k, hk with
    | 0, hk => simp at hk
    | k + 1, hk =>
      rcases hs : utf8Step (b :: x ++ r) with ⟨_ | ⟨c, r'⟩, r''⟩
      · obtain ⟨u', e, g2, g3, g4, _⟩ := utf8Step_bad (b := b) (t := x ++ r) (by rw [← List.cons_append]; exact hs)
        rw [← List.cons_append] at e g4
        have hu' := List.length_pos_iff.2 g2
        have l1 : u'.length ≤ (b :: x).length := by
          rcases g3 with g3 | g3
          · simp [g3]
          · exact hmax u' (e ▸ List.prefix_append _ _) (char_of_pending g3)
        have l2 : (b :: x).length ≤ u'.length := by
          rcases h1 with h1 | ⟨c, s, hc⟩
          · omega
          · refine g4 _ (List.prefix_append _ _) (pending_of_char hc.symm hu ?_)
            rintro rfl
            rw [List.append_nil] at hc
            exact hn c (hc ▸ List.prefix_append _ _)
        obtain ⟨rfl, rfl⟩ := List.append_inj e (by omega)
        rw [List.cons_append] at hs ⊢
        rw [utf8SkipAux, hs]
        dsimp only
        rw [ih k (by simp only [List.length_cons] at hk; omega)]
      · obtain ⟨y, hy, e, _⟩ := utf8Step_some hs
        obtain ⟨d, _, rfl⟩ := exists_char hy
        exact absurd (e ▸ List.prefix_append _ _) (hn d)

theorem skipped_iff {bs : List Nat} {t : Str} : Skipped bs t ↔ t = utf8Skip bs :=
  ⟨fun h => (h.unique _ (Nat.le_refl _)).symm, fun h => h ▸ skipped_dec _ _ (Nat.le_refl _)⟩

theorem Spec.Skipped.sc {bs : List Nat} {t : Str} (h : Skipped bs t) : ∃ s : String, lit s = t := by
  induction h with
  | nil => exact ⟨"", rfl⟩
  | char c _ ih =>
    obtain ⟨s, rfl⟩ := ih
    exact ⟨String.ofList (c :: s.toList), by simp [lit]⟩
  | bad _ _ _ _ _ ih => exact ih

end Verif
