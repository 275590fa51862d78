import Verif.Spec.Bpe
import Mathlib.Tactic.Linarith
/-! # Facts on pair counts and replacements -/

namespace Verif.Spec

/-- `x` followed by an optional symbol is the pair `q` -/
def hd (q : Nat × Nat) (x : Nat) (o : Option Nat) : Int := if x = q.1 ∧ o = some q.2 then 1 else 0
/-- an optional symbol followed by `x` is the pair `q` -/
def tl (q : Nat × Nat) (o : Option Nat) (x : Nat) : Int := if o = some q.1 ∧ x = q.2 then 1 else 0

theorem hd_nonneg (q : Nat × Nat) (x : Nat) (o : Option Nat) : 0 ≤ hd q x o := by unfold hd; split <;> decide
theorem tl_nonneg (q : Nat × Nat) (x : Option Nat) (o : Nat) : 0 ≤ tl q x o := by unfold tl; split <;> decide

theorem pairOcc_cons (q : Nat × Nat) (x : Nat) (s : List Nat) : pairOcc q (x :: s) = hd q x s.head? + pairOcc q s := by
  cases s with
  | nil => simp [pairOcc, hd]
  | cons y r =>
    simp only [pairOcc, hd, List.head?_cons, Option.some.injEq]
    obtain ⟨q1, q2⟩ := q
    simp only [Prod.mk.injEq]

theorem pairOcc_nonneg (q : Nat × Nat) (s : List Nat) : 0 ≤ pairOcc q s := by
  induction s with
  | nil => simp [pairOcc]
  | cons x s ih => rw [pairOcc_cons]; have := hd_nonneg q x s.head?; omega

theorem pairOcc_append (q : Nat × Nat) (A : List Nat) (x : Nat) (B : List Nat) :
    pairOcc q (A ++ x :: B) = pairOcc q A + tl q A.getLast? x + pairOcc q (x :: B) := by
  induction A with
  | nil => simp [pairOcc, tl]
  | cons y A ih =>
    rw [List.cons_append, pairOcc_cons, ih, pairOcc_cons q y A]
    cases A with
    | nil => simp only [List.nil_append, List.head?_cons, List.head?_nil, List.getLast?_singleton, List.getLast?_nil, pairOcc, hd, tl]
             simp
    | cons z A => simp only [List.cons_append, List.head?_cons, List.getLast?_cons_cons]; omega

/-- effect of one replacement on the count of a pair -/
theorem pairOcc_replace (q : Nat × Nat) (A : List Nat) (a b r : Nat) (B : List Nat) :
    pairOcc q (A ++ r :: B) = pairOcc q (A ++ a :: b :: B) - tl q A.getLast? a - (if (a, b) = q then 1 else 0) - hd q b B.head?
      + tl q A.getLast? r + hd q r B.head? := by
  rw [pairOcc_append, pairOcc_append, pairOcc_cons, pairOcc_cons q a, pairOcc_cons q b]
  have : hd q a (b :: B).head? = if (a, b) = q then 1 else 0 := by
    obtain ⟨q1, q2⟩ := q; simp [hd]
  rw [this]; omega

theorem Replaces.refl (a b r : Nat) (s : List Nat) : Replaces a b r s s := by
  induction s with
  | nil => exact .nil
  | cons x s ih => exact .keep x ih

/-- one more replacement -/
theorem Replaces.more {a b r : Nat} (ha : a ≠ r) (hb : b ≠ r) {s t : List Nat} (h : Replaces a b r s t) :
    ∀ {A B : List Nat}, t = A ++ a :: b :: B → Replaces a b r s (A ++ r :: B) := by
  induction h with
  | nil => intro A B h; simp at h
  | @keep x s t h ih =>
    intro A B e
    cases A with
    | nil =>
      simp only [List.nil_append, List.cons.injEq] at e
      obtain ⟨rfl, rfl⟩ := e
      cases h with
      | keep _ h => exact .pair h
      | pair h => exact absurd rfl hb
    | cons y A =>
      simp only [List.cons_append, List.cons.injEq] at e
      obtain ⟨rfl, rfl⟩ := e
      exact .keep _ (ih rfl)
  | @pair s t h ih =>
    intro A B e
    cases A with
    | nil =>
      simp only [List.nil_append, List.cons.injEq] at e
      exact absurd e.1.symm ha
    | cons y A =>
      simp only [List.cons_append, List.cons.injEq] at e
      obtain ⟨rfl, rfl⟩ := e
      exact .pair (ih rfl)

theorem Replaces.head {a b r : Nat} {s t : List Nat} (h : Replaces a b r s t) {c : Nat} (hc : c ≠ r) (hh : t.head? = some c) :
    s.head? = some c := by
  cases h with
  | nil => simp at hh
  | keep x h => simpa using hh
  | pair h => simp at hh; exact absurd hh.symm hc

/-- pairs without the new symbol do not become more frequent -/
theorem Replaces.occ_le {a b r : Nat} {s t : List Nat} (h : Replaces a b r s t) {q : Nat × Nat} (h1 : q.1 ≠ r) (h2 : q.2 ≠ r) :
    pairOcc q t ≤ pairOcc q s := by
  induction h with
  | nil => exact le_refl _
  | @keep x s t h ih =>
    rw [pairOcc_cons, pairOcc_cons]
    have : hd q x t.head? ≤ hd q x s.head? := by
      unfold hd
      by_cases hc : x = q.1 ∧ t.head? = some q.2
      · rw [if_pos hc, if_pos ⟨hc.1, h.head h2 hc.2⟩]
      · rw [if_neg hc]; split <;> decide
    omega
  | @pair s t h ih =>
    rw [pairOcc_cons, pairOcc_cons, pairOcc_cons]
    have h0 : hd q r t.head? = 0 := by unfold hd; rw [if_neg]; rintro ⟨e, _⟩; exact h1 e.symm
    have := hd_nonneg q a (b :: s).head?
    have := hd_nonneg q b s.head?
    omega

/-- the new symbol appears at most as often as the pair did -/
theorem Replaces.count_new {a b r : Nat} {s t : List Nat} (h : Replaces a b r s t) (hr : r ∉ s) :
    (t.count r : Int) ≤ pairOcc (a, b) s := by
  induction h with
  | nil => simp [pairOcc]
  | @keep x s t h ih =>
    simp only [List.mem_cons, not_or] at hr
    rw [pairOcc_cons, List.count_cons_of_ne (Ne.symm hr.1)]
    have := ih hr.2
    have := hd_nonneg (a, b) x s.head?
    omega
  | @pair s t h ih =>
    simp only [List.mem_cons, not_or] at hr
    rw [pairOcc_cons, pairOcc_cons, List.count_cons_self]
    have := ih hr.2.2
    have := hd_nonneg (a, b) b s.head?
    have h1 : hd (a, b) a (b :: s).head? = 1 := by simp [hd]
    push_cast
    omega

theorem pairOcc_le_count_fst (q : Nat × Nat) (s : List Nat) : pairOcc q s ≤ s.count q.1 := by
  induction s with
  | nil => simp [pairOcc]
  | cons x s ih =>
    rw [pairOcc_cons, List.count_cons]
    unfold hd
    by_cases hx : x = q.1
    · subst hx; simp; split <;> omega
    · rw [if_neg (fun h => hx h.1)]; simp [hx]; exact ih

theorem pairOcc_le_count_snd (q : Nat × Nat) (s : List Nat) :
    pairOcc q s ≤ s.count q.2 ∧ (s.head? = some q.2 → pairOcc q s + 1 ≤ s.count q.2) := by
  induction s with
  | nil => simp [pairOcc]
  | cons x s ih =>
    rw [pairOcc_cons, List.count_cons]
    unfold hd
    by_cases hc : s.head? = some q.2
    · have := ih.2 hc
      by_cases hx : x = q.2
      · subst hx; simp; constructor <;> split <;> omega
      · simp [hx]; split <;> omega
    · have := ih.1
      rw [if_neg (fun h => hc h.2)]
      by_cases hx : x = q.2
      · subst hx; simp; omega
      · simp [hx]; omega

/-- symbols of the result: old ones or the new one -/
theorem Replaces.mem {a b r : Nat} {s t : List Nat} (h : Replaces a b r s t) : ∀ x ∈ t, x ∈ s ∨ x = r := by
  induction h with
  | nil => simp
  | keep x h ih =>
    intro y hy
    rcases List.mem_cons.1 hy with rfl | hy
    · simp
    · rcases ih y hy with h | h <;> simp [h]
  | pair h ih =>
    intro y hy
    rcases List.mem_cons.1 hy with rfl | hy
    · simp
    · rcases ih y hy with h | h <;> simp [h]

/-- for distinct symbols the result of replacing all occurrences is unique -/
theorem Replaces.unique {a b r : Nat} (hab : a ≠ b) {s t : List Nat} (h : Replaces a b r s t) (hs : r ∉ s)
    (h0 : pairOcc (a, b) t = 0) : ∀ {t' : List Nat}, Replaces a b r s t' → pairOcc (a, b) t' = 0 → t = t' := by
  have key : ∀ {s t : List Nat}, Replaces a b r (b :: s) t → ∃ t1, t = b :: t1 ∧ Replaces a b r s t1 := by
    intro s t h
    cases h with
    | keep _ h => exact ⟨_, rfl, h⟩
    | pair h => exact absurd rfl hab
  have pos : ∀ {t1 : List Nat}, pairOcc (a, b) (a :: b :: t1) ≠ 0 := by
    intro t1
    rw [pairOcc_cons]
    have h1 : hd (a, b) a (b :: t1).head? = 1 := by simp [hd]
    have := pairOcc_nonneg (a, b) (b :: t1)
    omega
  have tail0 : ∀ {x : Nat} {t : List Nat}, pairOcc (a, b) (x :: t) = 0 → pairOcc (a, b) t = 0 := by
    intro x t h
    rw [pairOcc_cons] at h
    have := pairOcc_nonneg (a, b) t
    have := hd_nonneg (a, b) x t.head?
    omega
  induction h with
  | nil => intro t' h' _; cases h'; rfl
  | @keep x s t h ih =>
    intro t' h' h0'
    simp only [List.mem_cons, not_or] at hs
    cases h' with
    | keep _ h' => rw [ih hs.2 (tail0 h0) h' (tail0 h0')]
    | pair h' =>
      obtain ⟨t1, rfl, _⟩ := key h
      exact absurd h0 pos
  | @pair s t h ih =>
    intro t' h' h0'
    simp only [List.mem_cons, not_or] at hs
    cases h' with
    | keep _ h' =>
      obtain ⟨t1, rfl, _⟩ := key h'
      exact absurd h0' pos
    | pair h' => rw [ih hs.2.2 (tail0 h0) h' (tail0 h0')]

/-! ## corpora -/

theorem pairCount_nonneg {C : Corpus} (h : ∀ s ∈ C, 0 ≤ s.2) (q : Nat × Nat) : 0 ≤ pairCount C q := by
  induction C with
  | nil => simp [pairCount]
  | cons s C ih =>
    have h1 := ih (fun s hs => h s (by simp [hs]))
    have h2 := mul_nonneg (h s (by simp)) (pairOcc_nonneg q s.1)
    simp only [pairCount, List.map_cons, List.sum_cons] at h1 ⊢
    omega

/-- the sequences are related one by one -/
def Rel (a b r : Nat) (C C' : Corpus) : Prop := List.Forall₂ (fun s t => s.2 = t.2 ∧ Replaces a b r s.1 t.1) C C'

theorem Rel.refl (a b r : Nat) (C : Corpus) : Rel a b r C C := by
  induction C with
  | nil => exact .nil
  | cons s C ih => exact .cons ⟨rfl, Replaces.refl _ _ _ _⟩ ih

theorem Rel.count_le {a b r : Nat} {C C' : Corpus} (h : Rel a b r C C') (hf : ∀ s ∈ C, 0 ≤ s.2) {q : Nat × Nat} (h1 : q.1 ≠ r)
    (h2 : q.2 ≠ r) : pairCount C' q ≤ pairCount C q := by
  induction h with
  | nil => exact le_refl _
  | @cons s t C C' hst h ih =>
    have := ih (fun s hs => hf s (by simp [hs]))
    have h3 := mul_le_mul_of_nonneg_left (hst.2.occ_le h1 h2) (hf s (by simp))
    simp only [pairCount, List.map_cons, List.sum_cons, ← hst.1] at this ⊢
    omega

/-- counts of pairs with the new symbol are at most that of the replaced pair -/
theorem Rel.count_new {a b r : Nat} {C C' : Corpus} (h : Rel a b r C C') (hf : ∀ s ∈ C, 0 ≤ s.2) (hr : ∀ s ∈ C, r ∉ s.1)
    {q : Nat × Nat} (h1 : q.1 = r ∨ q.2 = r) : pairCount C' q ≤ pairCount C (a, b) := by
  induction h with
  | nil => exact le_refl _
  | @cons s t C C' hst h ih =>
    have := ih (fun s hs => hf s (by simp [hs])) (fun s hs => hr s (by simp [hs]))
    have h3 := hst.2.count_new (hr s (by simp))
    have h4 : pairOcc q t.1 ≤ t.1.count r := by
      rcases h1 with h1 | h1
      · rw [← h1]; exact pairOcc_le_count_fst q t.1
      · rw [← h1]; exact (pairOcc_le_count_snd q t.1).1
    have h5 := mul_le_mul_of_nonneg_left (le_trans h4 h3) (hf s (by simp))
    simp only [pairCount, List.map_cons, List.sum_cons, ← hst.1] at this ⊢
    omega

theorem Rel.of_merged {p : Nat × Nat} {r : Nat} {C C' : Corpus} (h : Merged p r C C') : Rel p.1 p.2 r C C' :=
  List.Forall₂.imp (fun _ _ h => ⟨h.1, h.2.1⟩) h

end Verif.Spec
