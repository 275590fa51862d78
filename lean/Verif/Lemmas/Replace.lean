import Verif.Model.Io
import Verif.Lemmas.Bytes
import Verif.Spec.Replace
/-! # Decoding with replacement characters -/

namespace Verif
open Spec

theorem utf8Char_scalar {c : Nat} {x : List Nat} (hx : utf8Char c = .ok x) : Scalar c := by
  have : utf8Encode [c] = .ok (x ++ []) := by simp [utf8Encode, hx]
  exact utf8Encode_scalar this c (by simp)

theorem utf8Step_char {c : Nat} {x : List Nat} (hx : utf8Char c = .ok x) (r : List Nat) : utf8Step (x ++ r) = (some (c, r), r) := by
  obtain ⟨x', hx', _, _, hstep⟩ := utf8Char_ok (utf8Char_scalar hx)
  rw [hx] at hx'; cases hx'
  obtain ⟨_, _, _, h2⟩ := hstep r
  exact h2

/-- a decoded character does not depend on what follows -/
theorem utf8Step_some_append {bs r r' : List Nat} {c : Nat} (h : utf8Step bs = (some (c, r), r')) (rest : List Nat) :
    utf8Step (bs ++ rest) = (some (c, r ++ rest), r ++ rest) := by
  obtain ⟨x, hx, rfl, hne⟩ := utf8Step_some h
  rw [List.append_assoc]
  exact utf8Step_char hx _

theorem isCont_iff {b : Nat} : isCont b = true ↔ 0x80 ≤ b ∧ b ≤ 0xBF := by simp [isCont]

theorem secondOk3 {b b1 : Nat} (h : 0xE0 ≤ b ∧ b ≤ 0xEF) :
    ((if b = 0xE0 then 0xA0 else 0x80) ≤ b1 ∧ b1 ≤ (if b = 0xED then 0x9F else 0xBF)) ↔ secondOk b b1 = true := by
  rw [secondOk, decide_eq_true_eq, if_neg (by omega : ¬ b = 0xF0), if_neg (by omega : ¬ b = 0xF4)]

theorem secondOk4 {b b1 : Nat} (h : 0xF0 ≤ b ∧ b ≤ 0xF4) :
    ((if b = 0xF0 then 0x90 else 0x80) ≤ b1 ∧ b1 ≤ (if b = 0xF4 then 0x8F else 0xBF)) ↔ secondOk b b1 = true := by
  rw [secondOk, decide_eq_true_eq, if_neg (by omega : ¬ b = 0xE0), if_neg (by omega : ¬ b = 0xED)]

theorem step2 {b : Nat} (h : 0xC2 ≤ b ∧ b ≤ 0xDF) (r : List Nat) : utf8Step (b :: r) = match r with
    | b1 :: r1 => if isCont b1 then (some ((b - 0xC0) * 64 + (b1 - 0x80), r1), r1) else (none, r)
    | [] => (none, r) := by
  rw [utf8Step.eq_def]; dsimp only; rw [if_neg (by omega), if_pos h]
  rcases r with _ | ⟨b1, r⟩ <;> rfl

theorem step3 {b : Nat} (h : 0xE0 ≤ b ∧ b ≤ 0xEF) (r : List Nat) : utf8Step (b :: r) = match r with
    | b1 :: r1 => if secondOk b b1 then match r1 with
        | b2 :: r2 => if isCont b2 then (some ((b - 0xE0) * 4096 + (b1 - 0x80) * 64 + (b2 - 0x80), r2), r2) else (none, r1)
        | [] => (none, r1)
      else (none, r)
    | [] => (none, r) := by
  rw [utf8Step.eq_def]; dsimp only; rw [if_neg (by omega), if_neg (by omega), if_pos h]
  simp only [secondOk3 h]
  rcases r with _ | ⟨b1, _ | ⟨b2, r⟩⟩ <;> rfl

theorem step4 {b : Nat} (h : 0xF0 ≤ b ∧ b ≤ 0xF4) (r : List Nat) : utf8Step (b :: r) = match r with
    | b1 :: r1 => if secondOk b b1 then match r1 with
        | b2 :: r2 => if isCont b2 then match r2 with
            | b3 :: r3 => if isCont b3 then
                (some ((b - 0xF0) * 262144 + (b1 - 0x80) * 4096 + (b2 - 0x80) * 64 + (b3 - 0x80), r3), r3) else (none, r2)
            | [] => (none, r2)
          else (none, r1)
        | [] => (none, r1)
      else (none, r)
    | [] => (none, r) := by
  rw [utf8Step.eq_def]; dsimp only; rw [if_neg (by omega), if_neg (by omega), if_neg (by omega), if_pos h]
  simp only [secondOk4 h]
  rcases r with _ | ⟨b1, _ | ⟨b2, _ | ⟨b3, r⟩⟩⟩ <;> rfl

theorem step0 {b : Nat} (h : b < 0x80) (r : List Nat) : utf8Step (b :: r) = (some (b, r), r) := by rw [utf8Step.eq_def]; dsimp only; rw [if_pos h]

theorem stepX {b : Nat} (h : 0x80 ≤ b ∧ b < 0xC2 ∨ 0xF4 < b) (r : List Nat) : utf8Step (b :: r) = (none, r) := by
  rw [utf8Step.eq_def]; dsimp only; rw [if_neg (by omega), if_neg (by omega), if_neg (by omega), if_neg (by omega)]

theorem byte_cases (b : Nat) : b < 0x80 ∨ (0xC2 ≤ b ∧ b ≤ 0xDF) ∨ (0xE0 ≤ b ∧ b ≤ 0xEF) ∨ (0xF0 ≤ b ∧ b ≤ 0xF4) ∨ (0x80 ≤ b ∧ b < 0xC2 ∨ 0xF4 < b) := by
  omega

/-- the bytes that are skipped: the longest beginning of a character, or one byte -/
theorem utf8Step_bad {b : Nat} {t r : List Nat} (h : utf8Step (b :: t) = (none, r)) :
    ∃ u, b :: t = u ++ r ∧ u ≠ [] ∧ (u.length = 1 ∨ utf8Pending u = true) ∧ (∀ v, v <+: b :: t → utf8Pending v = true → v.length ≤ u.length) ∧
      (utf8Pending (b :: t) = false → ∀ rest, utf8Step (b :: t ++ rest) = (none, r ++ rest)) := by
  have long : ∀ (v : List Nat), v <+: b :: t → utf8Pending v = true → ∀ k, (∀ w, w <+: b :: t → k < w.length → utf8Pending w = false) → v.length ≤ k := by
    intro v h1 h2 k hk
    by_contra hc
    have := hk v h1 (by omega)
    rw [h2] at this; cases this
  rcases byte_cases b with hb | hb | hb | hb | hb
  · rw [step0 hb] at h; cases h
  · rw [step2 hb] at h
    have hr : r = t := by
      split at h
      · split at h
        · cases h
        · cases h; rfl
      · cases h; rfl
    subst hr
    refine ⟨[b], rfl, by simp, .inl rfl, fun v h1 h2 => long v h1 h2 1 ?_, ?_⟩
    · rintro w ⟨z, hz⟩ hw
      match w with
      | [x] => simp at hw
      | [x, y] => cases hz; simp [utf8Pending]; omega
      | [x, y, u] => cases hz; simp [utf8Pending]; omega
      | x :: y :: u :: q :: w => rfl
    · intro hp rest
      cases r with
      | nil => simp [utf8Pending] at hp; omega
      | cons b1 r1 =>
        rw [List.cons_append, step2 hb]
        simp only [List.cons_append] at h ⊢
        by_cases hc : isCont b1 = true
        · simp [hc] at h
        · simp [hc]
  · rw [step3 hb] at h
    match t, h, long with
    | [], h, long =>
      cases h
      refine ⟨[b], rfl, by simp, .inl rfl, fun v h1 _ => h1.length_le, fun hp => ?_⟩
      simp [utf8Pending] at hp; omega
    | b1 :: r1, h, long =>
      simp only at h
      by_cases h1 : secondOk b b1 = true
      · rw [if_pos h1] at h
        have hr : r = r1 := by
          split at h
          · split at h
            · cases h
            · cases h; rfl
          · cases h; rfl
        subst hr
        refine ⟨[b, b1], rfl, by simp, .inr (by simp [utf8Pending, h1]; omega), fun v h1 h2 => long v h1 h2 2 ?_, fun hp rest => ?_⟩
        · rintro w ⟨z, hz⟩ hw
          match w with
          | [x] => simp at hw
          | [x, y] => simp at hw
          | [x, y, u] => cases hz; simp [utf8Pending]; omega
          | x :: y :: u :: q :: w => rfl
        · cases r with
          | nil => simp [utf8Pending, h1] at hp; omega
          | cons b2 r2 =>
            rw [List.cons_append, step3 hb]
            simp only [List.cons_append, h1, if_true] at h ⊢
            by_cases hc : isCont b2 = true
            · simp [hc] at h
            · simp [hc]
      · rw [if_neg h1] at h
        cases h
        refine ⟨[b], rfl, by simp, .inl rfl, fun v h3 h2 => long v h3 h2 1 ?_, fun hp rest => ?_⟩
        · rintro w ⟨z, hz⟩ hw
          match w with
          | [x] => simp at hw
          | [x, y] => cases hz; simp [utf8Pending, h1]
          | [x, y, u] => cases hz; simp [utf8Pending, h1]
          | x :: y :: u :: q :: w => rfl
        · rw [List.cons_append, step3 hb]
          simp [h1]
  · rw [step4 hb] at h
    match t, h, long with
    | [], h, long =>
      cases h
      refine ⟨[b], rfl, by simp, .inl rfl, fun v h1 _ => h1.length_le, fun hp => ?_⟩
      simp [utf8Pending] at hp; omega
    | b1 :: r1, h, long =>
      simp only at h
      by_cases h1 : secondOk b b1 = true
      · rw [if_pos h1] at h
        match r1, h, long with
        | [], h, long =>
          cases h
          refine ⟨[b, b1], rfl, by simp, .inr (by simp [utf8Pending, h1]; omega), fun v h1 _ => h1.length_le, fun hp => ?_⟩
          simp [utf8Pending, h1] at hp; omega
        | b2 :: r2, h, long =>
          simp only at h
          by_cases h2 : isCont b2 = true
          · rw [if_pos h2] at h
            have hr : r = r2 := by
              split at h
              · split at h
                · cases h
                · cases h; rfl
              · cases h; rfl
            subst hr
            refine ⟨[b, b1, b2], rfl, by simp, .inr (by simp [utf8Pending, h1, h2]; omega), fun v h1 h2 => long v h1 h2 3 ?_, fun hp rest => ?_⟩
            · rintro w ⟨z, hz⟩ hw
              match w with
              | [x] => simp at hw
              | [x, y] => simp at hw
              | [x, y, u] => simp at hw
              | x :: y :: u :: q :: w => rfl
            · cases r with
              | nil => simp [utf8Pending, h1, h2] at hp; omega
              | cons b3 r3 =>
                rw [List.cons_append, step4 hb]
                simp only [List.cons_append, h1, h2, if_true] at h ⊢
                by_cases hc : isCont b3 = true
                · simp [hc] at h
                · simp [hc]
          · rw [if_neg h2] at h
            cases h
            refine ⟨[b, b1], rfl, by simp, .inr (by simp [utf8Pending, h1]; omega), fun v h3 h4 => long v h3 h4 2 ?_, fun hp rest => ?_⟩
            · rintro w ⟨z, hz⟩ hw
              match w with
              | [x] => simp at hw
              | [x, y] => simp at hw
              | [x, y, u] => cases hz; simp [utf8Pending, h2]
              | x :: y :: u :: q :: w => rfl
            · rw [List.cons_append, step4 hb]
              simp [h1, h2]
      · rw [if_neg h1] at h
        cases h
        refine ⟨[b], rfl, by simp, .inl rfl, fun v h3 h2 => long v h3 h2 1 ?_, fun hp rest => ?_⟩
        · rintro w ⟨z, hz⟩ hw
          match w with
          | [x] => simp at hw
          | [x, y] => cases hz; simp [utf8Pending, h1]
          | [x, y, u] => cases hz; simp [utf8Pending, h1]
          | x :: y :: u :: q :: w => rfl
        · rw [List.cons_append, step4 hb]
          simp [h1]
  · rw [stepX hb] at h
    cases h
    refine ⟨[b], rfl, by simp, .inl rfl, fun v h3 h2 => long v h3 h2 1 ?_, fun hp rest => ?_⟩
    · rintro w ⟨z, hz⟩ hw
      match w with
      | [x] => simp at hw
      | [x, y] => cases hz; simp [utf8Pending]; omega
      | [x, y, u] => cases hz; simp [utf8Pending]; omega
      | x :: y :: u :: q :: w => rfl
    · rw [List.cons_append, stepX hb]

/-- bytes that are kept are the beginning of a character -/
theorem pending_complete {p : List Nat} (h : utf8Pending p = true) : ∃ (s : List Nat) (c : Nat), s ≠ [] ∧ utf8Char c = .ok (p ++ s) := by
  have fin : ∀ s : List Nat, s ≠ [] → ∀ c r, utf8Step (p ++ s) = (some (c, []), r) → ∃ (s : List Nat) (c : Nat), s ≠ [] ∧ utf8Char c = .ok (p ++ s) := by
    intro s hs c r he
    obtain ⟨x, hx, e, _⟩ := utf8Step_some he
    rw [List.append_nil] at e
    exact ⟨s, c, hs, by rw [hx, e]⟩
  match p, h with
  | [b], h =>
    simp only [utf8Pending, decide_eq_true_eq] at h
    rcases byte_cases b with hb | hb | hb | hb | hb
    · omega
    · exact fin [0x80] (by simp) _ _ (by rw [List.singleton_append, step2 hb]; rfl)
    · have : secondOk b (if b = 0xE0 then 0xA0 else 0x80) = true := by
        rw [← secondOk3 hb]
        repeat' split
        all_goals omega
      exact fin [if b = 0xE0 then 0xA0 else 0x80, 0x80] (by simp) _ _ (by rw [List.singleton_append, step3 hb]; simp only [this, if_true]; rfl)
    · have : secondOk b (if b = 0xF0 then 0x90 else 0x80) = true := by
        rw [← secondOk4 hb]
        repeat' split
        all_goals omega
      exact fin [if b = 0xF0 then 0x90 else 0x80, 0x80, 0x80] (by simp) _ _ (by rw [List.singleton_append, step4 hb]; simp only [this, if_true]; rfl)
    · omega
  | [b, b1], h =>
    simp only [utf8Pending, Bool.and_eq_true, decide_eq_true_eq] at h
    obtain ⟨h0, h1⟩ := h
    rcases byte_cases b with hb | hb | hb | hb | hb
    · omega
    · omega
    · exact fin [0x80] (by simp) _ _ (by rw [List.cons_append, step3 hb]; simp only [List.singleton_append, h1, if_true]; rfl)
    · exact fin [0x80, 0x80] (by simp) _ _ (by rw [List.cons_append, step4 hb]; simp only [List.singleton_append, h1, if_true]; rfl)
    · omega
  | [b, b1, b2], h =>
    simp only [utf8Pending, Bool.and_eq_true, decide_eq_true_eq] at h
    obtain ⟨⟨h0, h1⟩, h2⟩ := h
    exact fin [0x80] (by simp) _ _ (by rw [List.cons_append, step4 h0]; simp only [List.cons_append, List.nil_append, h1, h2, if_true]; rfl)

theorem exists_char {c : Nat} {x : List Nat} (h : utf8Char c = .ok x) : ∃ d : Char, d.toNat = c ∧ charBytes d = x := by
  have hs := utf8Char_scalar h
  have hv : c.isValidChar := by
    have h1 := hs.1; have h2 := hs.2
    unfold Nat.isValidChar; omega
  have e : (Char.ofNat c).toNat = c := by
    rw [Char.ofNat, dif_pos hv]; rfl
  refine ⟨Char.ofNat c, e, ?_⟩
  have := utf8Char_eq (Char.ofNat c)
  rw [e, h] at this
  exact (Except.ok.inj this).symm

theorem utf8Char_bytes (c : Char) : utf8Char c.toNat = .ok (charBytes c) := utf8Char_eq c

theorem char_of_pending {p : List Nat} (h : utf8Pending p = true) : ∃ c : Char, p <+: charBytes c := by
  obtain ⟨s, c, _, hc⟩ := pending_complete h
  obtain ⟨d, _, hd⟩ := exists_char hc
  exact ⟨d, s, hd.symm⟩

theorem pending_of_char {p s : List Nat} {c : Char} (h : charBytes c = p ++ s) (hp : p ≠ []) (hs : s ≠ []) : utf8Pending p = true :=
  pending_prefix (utf8Char_bytes c) h hp hs

theorem step_none_char {bs r : List Nat} (h : utf8Step bs = (none, r)) (c : Char) : ¬ charBytes c <+: bs := by
  rintro ⟨z, hz⟩
  rw [← hz, utf8Step_char (utf8Char_bytes c)] at h
  cases h

/-- the decoder does what is specified -/
theorem replaced_dec : ∀ (k : Nat) (bs : List Nat), bs.length ≤ k → Replaced bs (utf8DecAux k bs)
  | 0, bs, h => by
    have : bs = [] := List.length_eq_zero_iff.1 (by omega)
    subst this; exact .nil
  | k + 1, [], _ => .nil
  | k + 1, b :: bs, h => by
    rw [utf8DecAux]
    rcases hs : utf8Step (b :: bs) with ⟨_ | ⟨c, r⟩, r'⟩
    · obtain ⟨u, h1, h2, h3, h4, _⟩ := utf8Step_bad hs
      have hl := congrArg List.length h1
      have := List.length_pos_iff.2 h2
      simp only [List.length_cons, List.length_append] at hl h
      dsimp only
      have hn := step_none_char hs
      rw [h1] at hn h4 ⊢
      refine .bad h2 hn ?_ ?_ (replaced_dec k r' (by omega))
      · exact h3.imp id char_of_pending
      · rintro v hv ⟨c, s, hc⟩
        by_cases hv0 : v = []
        · subst hv0; simp
        by_cases hs0 : s = []
        · subst hs0
          rw [List.append_nil] at hc
          exact absurd (hc ▸ hv) (hn c)
        · exact h4 v hv (pending_of_char hc.symm hv0 hs0)
    · obtain ⟨x, hx, h1, h2⟩ := utf8Step_some hs
      obtain ⟨d, rfl, rfl⟩ := exists_char hx
      have hl := congrArg List.length h1
      have := List.length_pos_iff.2 h2
      simp only [List.length_cons, List.length_append] at hl h
      dsimp only
      rw [h1]
      exact .char d (replaced_dec k r (by omega))

/-- and nothing else is as specified -/
theorem Spec.Replaced.unique {bs : List Nat} {t : Str} (h : Replaced bs t) : ∀ k, bs.length ≤ k → utf8DecAux k bs = t := by
  induction h with
  | nil => intro k _; cases k <;> rfl
  | @char c r t hr ih =>
    intro k hk
    have hne : charBytes c ≠ [] := by
      obtain ⟨x, hx, h2, _⟩ := utf8Char_ok (utf8Char_scalar (utf8Char_bytes c))
      rw [utf8Char_bytes] at hx; cases hx; exact h2
    have hpos := List.length_pos_iff.2 hne
    have hs := utf8Step_char (utf8Char_bytes c) r
    rw [List.length_append] at hk
    match k, charBytes c, hne, hs, hpos, hk with
    | 0, b :: x, _, _, _, hk => simp at hk
    | k + 1, b :: x, _, hs, _, hk =>
      rw [List.cons_append] at hs ⊢
      rw [utf8DecAux, hs]
      dsimp only
      rw [ih k (by simp only [List.length_cons] at hk; omega)]
  | @bad u r t hu hn h1 hmax hr ih =>
    intro k hk
    obtain ⟨b, x, rfl⟩ := List.exists_cons_of_ne_nil hu
    rw [List.length_append] at hk
    match k, hk with
    | 0, hk => simp at hk
    | k + 1, hk =>
      rcases hs : utf8Step (b :: x ++ r) with ⟨_ | ⟨c, r'⟩, r''⟩
      · obtain ⟨u', e, g2, g3, g4, _⟩ := utf8Step_bad (b := b) (t := x ++ r) (by rw [← List.cons_append]; exact hs)
        rw [← List.cons_append] at e g4
        have hu' := List.length_pos_iff.2 g2
        have l1 : u'.length ≤ (b :: x).length := by
          rcases g3 with g3 | g3
          · simp [g3]
          · exact hmax u' (e ▸ List.prefix_append _ _) (char_of_pending g3)
        have l2 : (b :: x).length ≤ u'.length := by
          rcases h1 with h1 | ⟨c, s, hc⟩
          · omega
          · refine g4 _ (List.prefix_append _ _) (pending_of_char hc.symm hu ?_)
            rintro rfl
            rw [List.append_nil] at hc
            exact hn c (hc ▸ List.prefix_append _ _)
        obtain ⟨rfl, rfl⟩ := List.append_inj e (by omega)
        rw [List.cons_append] at hs ⊢
        rw [utf8DecAux, hs]
        dsimp only
        rw [ih k (by simp only [List.length_cons] at hk; omega)]
      · obtain ⟨y, hy, e, _⟩ := utf8Step_some hs
        obtain ⟨d, _, rfl⟩ := exists_char hy
        exact absurd (e ▸ List.prefix_append _ _) (hn d)

theorem replaced_iff {bs : List Nat} {t : Str} : Replaced bs t ↔ t = utf8Decode bs :=
  ⟨fun h => (h.unique _ (Nat.le_refl _)).symm, fun h => h ▸ replaced_dec _ _ (Nat.le_refl _)⟩

theorem utf8DecAux_fuel {k : Nat} {bs : List Nat} (h : bs.length ≤ k) : utf8DecAux k bs = utf8Decode bs :=
  (replaced_dec _ bs (Nat.le_refl _)).unique k h

theorem utf8Decode_some {b : Nat} {bs r r' : List Nat} {c : Nat} (h : utf8Step (b :: bs) = (some (c, r), r')) :
    utf8Decode (b :: bs) = c :: utf8Decode r := by
  obtain ⟨x, _, e, hx⟩ := utf8Step_some h
  have hl := congrArg List.length e
  have := List.length_pos_iff.2 hx
  simp only [List.length_cons, List.length_append] at hl
  rw [utf8Decode, List.length_cons, utf8DecAux, h]
  dsimp only
  rw [utf8DecAux_fuel (by omega)]

theorem utf8Decode_none {b : Nat} {bs r : List Nat} (h : utf8Step (b :: bs) = (none, r)) : utf8Decode (b :: bs) = 0xFFFD :: utf8Decode r := by
  have hl := utf8Step_none h
  rw [utf8Decode, List.length_cons, utf8DecAux, h]
  dsimp only
  rw [utf8DecAux_fuel hl]

theorem utf8FeedR_ok : ∀ (k : Nat) (bs rest : List Nat), bs.length ≤ k →
    utf8Decode (bs ++ rest) = (utf8FeedR k bs).1 ++ utf8Decode ((utf8FeedR k bs).2 ++ rest)
  | 0, [], rest, _ => rfl
  | k + 1, [], rest, _ => rfl
  | 0, b :: bs, rest, h => by simp at h
  | k + 1, b :: bs, rest, h => by
    rw [utf8FeedR]
    rcases hs : utf8Step (b :: bs) with ⟨_ | ⟨c, r⟩, r'⟩
    · dsimp only
      obtain ⟨u, h1, h2, h3, h4, h5⟩ := utf8Step_bad hs
      cases hp : utf8Pending (b :: bs) with
      | true => simp
      | false =>
        have := h5 hp rest
        simp only [Bool.false_eq_true, if_false, List.cons_append] at this ⊢
        rw [utf8Decode_none this, utf8FeedR_ok k r' rest]
        have := utf8Step_none hs
        simp only [List.length_cons] at h; omega
    · dsimp only
      have := utf8Step_some_append hs rest
      rw [List.cons_append] at this ⊢
      rw [utf8Decode_some this, utf8FeedR_ok k r rest, List.cons_append]
      obtain ⟨x, _, e, hx⟩ := utf8Step_some hs
      have hl := congrArg List.length e
      have := List.length_pos_iff.2 hx
      simp only [List.length_cons, List.length_append] at hl h
      omega

theorem readReplace_ok : ∀ (chunks : List (List Nat)) (pend : List Nat), readReplace pend chunks = utf8Decode (pend ++ chunks.flatten)
  | [], pend => by simp [readReplace]
  | c :: cs, pend => by
    rw [readReplace, List.flatten_cons, ← List.append_assoc, utf8FeedR_ok _ _ _ (Nat.le_refl _), readReplace_ok cs]

end Verif
