import Verif.Model.Bytes
import Verif.Lemmas.Utf8
/-! # Decoding in chunks -/

namespace Verif

theorem utf8Step_pending {p : List Nat} (h : utf8Pending p = true) : (utf8Step p).1 = none := by
  match p, h with
  | [b0], h =>
    simp only [utf8Pending, decide_eq_true_eq] at h
    simp only [utf8Step]
    rw [if_neg (by omega)]
    repeat' split
    all_goals rfl
  | [b0, b1], h =>
    simp only [utf8Pending, Bool.and_eq_true, decide_eq_true_eq] at h
    simp only [utf8Step]
    rw [if_neg (by omega), if_neg (by omega)]
    repeat' split
    all_goals rfl
  | [b0, b1, b2], h =>
    simp only [utf8Pending, Bool.and_eq_true, decide_eq_true_eq] at h
    simp only [utf8Step]
    rw [if_neg (by omega), if_neg (by omega), if_neg (by omega)]
    repeat' split
    all_goals rfl

/-- a proper beginning of the encoding of a character is kept for the next chunk -/
theorem pending_prefix {c : Nat} {x bs s : List Nat} (h : utf8Char c = .ok x) (he : x = bs ++ s) (hb : bs ≠ []) (hs : s ≠ []) : utf8Pending bs = true := by
  unfold utf8Char at h
  split at h
  · cases h
    match bs, s, hb, hs with
    | a :: bs, d :: s, _, _ => have := congrArg List.length he; simp at this
  split at h
  · cases h
    match bs, s, hb, hs with
    | [a], d :: s, _, _ =>
      simp only [List.cons_append, List.nil_append, List.cons.injEq] at he
      simp only [utf8Pending, decide_eq_true_eq]
      omega
    | a :: b :: bs, d :: s, _, _ => have := congrArg List.length he; simp at this
  split at h
  · cases h
  split at h
  · cases h
    match bs, s, hb, hs with
    | [a], d :: s, _, _ =>
      simp only [List.cons_append, List.nil_append, List.cons.injEq] at he
      simp only [utf8Pending, decide_eq_true_eq]
      omega
    | [a, b], d :: s, _, _ =>
      simp only [List.cons_append, List.nil_append, List.cons.injEq] at he
      obtain ⟨rfl, rfl, _⟩ := he
      simp only [utf8Pending, secondOk, Bool.and_eq_true, decide_eq_true_eq]
      refine ⟨by omega, ?_, ?_⟩
      · repeat' split
        all_goals omega
      · repeat' split
        all_goals omega
    | a :: b :: e :: bs, d :: s, _, _ => have := congrArg List.length he; simp at this
  split at h
  · cases h
    match bs, s, hb, hs with
    | [a], d :: s, _, _ =>
      simp only [List.cons_append, List.nil_append, List.cons.injEq] at he
      simp only [utf8Pending, decide_eq_true_eq]
      omega
    | [a, b], d :: s, _, _ =>
      simp only [List.cons_append, List.nil_append, List.cons.injEq] at he
      obtain ⟨rfl, rfl, _⟩ := he
      simp only [utf8Pending, secondOk, Bool.and_eq_true, decide_eq_true_eq]
      refine ⟨by omega, ?_, ?_⟩
      · repeat' split
        all_goals omega
      · repeat' split
        all_goals omega
    | [a, b, e], d :: s, _, _ =>
      simp only [List.cons_append, List.nil_append, List.cons.injEq] at he
      obtain ⟨rfl, rfl, rfl, _⟩ := he
      simp only [utf8Pending, secondOk, isCont, Bool.and_eq_true, decide_eq_true_eq]
      refine ⟨⟨by omega, ?_, ?_⟩, by omega⟩
      · repeat' split
        all_goals omega
      · repeat' split
        all_goals omega
    | a :: b :: e :: f :: bs, d :: s, _, _ => have := congrArg List.length he; simp at this
  · cases h

theorem utf8Encode_cons {c : Nat} {t : Str} {bs : List Nat} (h : utf8Encode (c :: t) = .ok bs) :
    ∃ x y, utf8Char c = .ok x ∧ utf8Encode t = .ok y ∧ bs = x ++ y := by
  simp only [utf8Encode] at h
  cases hc : utf8Char c with
  | error e => simp [hc] at h
  | ok a =>
    cases hr : utf8Encode t with
    | error e => simp [hc, hr] at h
    | ok b =>
      simp only [hc, hr] at h
      cases h
      exact ⟨a, b, rfl, rfl, rfl⟩

theorem utf8Feed_complete : ∀ (T : Str) (k : Nat) (bs rest : List Nat), utf8Encode T = .ok (bs ++ rest) → bs.length ≤ k →
    ∃ t p T', utf8Feed k bs = some (t, p) ∧ T = t ++ T' ∧ utf8Encode T' = .ok (p ++ rest) ∧ (p = [] ∨ utf8Pending p = true)
  | T, k, [], rest, h, _ => ⟨[], [], T, by cases k <;> rfl, rfl, h, Or.inl rfl⟩
  | [], k, b :: bs, rest, h, _ => by simp [utf8Encode] at h
  | c :: T, 0, b :: bs, rest, h, hk => by simp at hk
  | c :: T, k + 1, b :: bs, rest, h, hk => by
    obtain ⟨x, y, hx, hy, he⟩ := utf8Encode_cons h
    have hsc := utf8Encode_scalar h c (by simp)
    obtain ⟨x', hx', hne, _, hstep⟩ := utf8Char_ok hsc
    rw [hx] at hx'; cases hx'
    rcases List.append_eq_append_iff.1 he with ⟨s, e1, e2⟩ | ⟨s, e1, e2⟩
    · -- the character is not complete
      by_cases hs : s = []
      · subst hs
        simp only [List.append_nil] at e1
        simp only [List.nil_append] at e2
        subst e2
        obtain ⟨_, _, _, hst⟩ := hstep []
        simp only [List.append_nil] at hst
        rw [e1] at hst
        refine ⟨[c], [], T, ?_, rfl, by simpa using hy, Or.inl rfl⟩
        simp only [utf8Feed, hst]
      · have hp := pending_prefix hx e1 (by simp) hs
        have hn := utf8Step_pending hp
        refine ⟨[], b :: bs, c :: T, ?_, rfl, h, Or.inr hp⟩
        rw [utf8Feed]
        cases hst : utf8Step (b :: bs) with
        | mk o r =>
          rw [hst] at hn
          simp only at hn
          subst hn
          simp [hp]
    · obtain ⟨_, _, _, hst⟩ := hstep s
      rw [← e1] at hst
      subst e2
      have hl : s.length ≤ k := by
        have := congrArg List.length e1
        have := List.length_pos_iff.2 hne
        simp at *; omega
      obtain ⟨t, p, T', f1, f2, f3, f4⟩ := utf8Feed_complete T k s rest hy hl
      refine ⟨c :: t, p, T', ?_, by rw [f2]; rfl, f3, f4⟩
      simp only [utf8Feed, hst, f1]

theorem utf8Feed_sound : ∀ (k : Nat) (bs : List Nat) {t : Str} {p : List Nat}, utf8Feed k bs = some (t, p) →
    ∃ x, utf8Encode t = .ok x ∧ bs = x ++ p
  | k, [], t, p, h => by
    have : utf8Feed k [] = some ([], []) := by cases k <;> rfl
    rw [this] at h
    cases h
    exact ⟨[], rfl, rfl⟩
  | 0, b :: bs, t, p, h => by simp [utf8Feed] at h
  | k + 1, b :: bs, t, p, h => by
    rw [utf8Feed] at h
    cases hs : utf8Step (b :: bs) with
    | mk o r =>
      rw [hs] at h
      cases o with
      | none =>
        simp only at h
        split at h
        · cases h; exact ⟨[], rfl, rfl⟩
        · cases h
      | some q =>
        obtain ⟨c, r'⟩ := q
        simp only at h
        cases hf : utf8Feed k r' with
        | none => rw [hf] at h; cases h
        | some q =>
          obtain ⟨t', p'⟩ := q
          rw [hf] at h
          cases h
          obtain ⟨x, h1, h2⟩ := utf8Feed_sound k r' hf
          obtain ⟨y, h3, h4, _⟩ := utf8Step_some hs
          exact ⟨y ++ x, by simp [utf8Encode, h3, h1], by rw [h4, h2, List.append_assoc]⟩

theorem readChunks_complete : ∀ (chunks : List (List Nat)) (pend : List Nat) {T : Str}, utf8Encode T = .ok (pend ++ chunks.flatten) →
    (pend = [] ∨ utf8Pending pend = true) → readChunks pend chunks = (T, true)
  | [], pend, T, h, hp => by
    simp only [List.flatten_nil, List.append_nil] at h
    cases T with
    | nil => simp [utf8Encode] at h; subst h; rfl
    | cons c T =>
      exfalso
      obtain ⟨x, y, hx, hy, he⟩ := utf8Encode_cons h
      obtain ⟨x', hx', hne, _, hstep⟩ := utf8Char_ok (utf8Encode_scalar h c (by simp))
      rw [hx] at hx'; cases hx'
      obtain ⟨_, _, _, hst⟩ := hstep y
      rcases hp with rfl | hp
      · simp at he; exact hne he.1
      · have := utf8Step_pending hp
        rw [he, hst] at this
        cases this
  | c :: cs, pend, T, h, hp => by
    rw [List.flatten_cons, ← List.append_assoc] at h
    obtain ⟨t, p, T', f1, f2, f3, f4⟩ := utf8Feed_complete T _ (pend ++ c) cs.flatten h (Nat.le_refl _)
    have ih := readChunks_complete cs p f3 f4
    simp only [readChunks, f1, ih, f2]

theorem readChunks_sound : ∀ (chunks : List (List Nat)) (pend : List Nat) {t : Str} {ok : Bool}, readChunks pend chunks = (t, ok) →
    ∃ x, utf8Encode t = .ok x ∧ x <+: pend ++ chunks.flatten ∧ (ok = true → x = pend ++ chunks.flatten)
  | [], pend, t, ok, h => by
    simp only [readChunks, Prod.mk.injEq] at h
    obtain ⟨rfl, rfl⟩ := h
    refine ⟨[], rfl, List.nil_prefix, fun h => ?_⟩
    simp only [List.isEmpty_iff] at h
    simp [h]
  | c :: cs, pend, t, ok, h => by
    rw [readChunks] at h
    cases hf : utf8Feed (pend ++ c).length (pend ++ c) with
    | none =>
      simp only [hf, Prod.mk.injEq] at h
      obtain ⟨rfl, rfl⟩ := h
      exact ⟨[], rfl, List.nil_prefix, by simp⟩
    | some q =>
      obtain ⟨t1, p⟩ := q
      simp only [hf, Prod.mk.injEq] at h
      obtain ⟨rfl, rfl⟩ := h
      obtain ⟨x, h1, h2⟩ := utf8Feed_sound _ _ hf
      obtain ⟨y, g1, g2, g3⟩ := readChunks_sound cs p (t := (readChunks p cs).1) (ok := (readChunks p cs).2) rfl
      have e : pend ++ (c :: cs).flatten = x ++ (p ++ cs.flatten) := by
        rw [List.flatten_cons, ← List.append_assoc, h2, List.append_assoc]
      refine ⟨x ++ y, utf8Encode_append h1 g1, ?_, fun hok => ?_⟩
      · rw [e]; exact (List.prefix_append_right_inj x).2 g2
      · rw [e, g3 hok]

theorem utf8SkipAux_encode (s : Str) : ∀ (bs : List Nat) (k : Nat), utf8Encode s = .ok bs → bs.length ≤ k → utf8SkipAux k bs = s := by
  induction s with
  | nil =>
    intro bs k h _
    simp [utf8Encode] at h
    subst h
    cases k <;> rfl
  | cons c cs ih =>
    intro bs k h hk
    have hsc := utf8Encode_scalar h c (by simp)
    obtain ⟨x, hx, hne, _, hstep⟩ := utf8Char_ok hsc
    obtain ⟨x', y, hx', hy, rfl⟩ := utf8Encode_cons h
    rw [hx] at hx'; cases hx'
    obtain ⟨a, b, hab, hs⟩ := hstep y
    subst hab
    cases k with
    | zero => simp at hk
    | succ k =>
      simp only [List.cons_append] at hs ⊢
      rw [utf8SkipAux, hs]
      simp only
      rw [ih y k hy (by simp at hk; omega)]

theorem utf8Skip_encode {s : Str} {bs : List Nat} (h : utf8Encode s = .ok bs) : utf8Skip bs = s := utf8SkipAux_encode s bs _ h (Nat.le_refl _)

theorem utf8Drop_encode {s : Str} {bs : List Nat} (h : utf8Encode s = .ok bs) : utf8Drop s = bs := by
  induction s generalizing bs with
  | nil => simp [utf8Encode] at h; subst h; rfl
  | cons c s ih =>
    obtain ⟨x, y, hx, hy, rfl⟩ := utf8Encode_cons h
    simp only [utf8Drop, List.flatMap_cons, hx]
    exact congrArg (x ++ ·) (ih hy)

end Verif
