import Verif.Lemmas.BpeRun
import Mathlib.Algebra.BigOperators.Group.List.Basic
import Verif.Lemmas.BpeppLearn
/-! # Runs from corpora without blocks repeated three times: the merges are determined -/

namespace Verif.Spec
open Verif

/-- the result of replacing all occurrences of a pair of equal symbols is unique if they do not overlap -/
theorem Replaces.unique_apart {a r : Nat} {s t : List Nat} (h : Replaces a a r s t) (hs : r ∉ s) (hap : ¬ [a, a, a] <:+: s)
    (h0 : pairOcc (a, a) t = 0) : ∀ {t' : List Nat}, Replaces a a r s t' → pairOcc (a, a) t' = 0 → t = t' := by
  have pos : ∀ {t1 : List Nat}, pairOcc (a, a) (a :: a :: t1) ≠ 0 := by
    intro t1
    rw [pairOcc_cons]
    have h1 : hd (a, a) a (a :: t1).head? = 1 := by simp [hd]
    have := pairOcc_nonneg (a, a) (a :: t1)
    omega
  have tail0 : ∀ {x : Nat} {t : List Nat}, pairOcc (a, a) (x :: t) = 0 → pairOcc (a, a) t = 0 := by
    intro x t h
    rw [pairOcc_cons] at h
    have := pairOcc_nonneg (a, a) t
    have := hd_nonneg (a, a) x t.head?
    omega
  have clash : ∀ {s t : List Nat}, Replaces a a r (a :: s) t → ¬ [a, a, a] <:+: a :: a :: s → pairOcc (a, a) (a :: t) = 0 → False := by
    intro s t h hap h0
    cases h with
    | keep _ h => exact pos h0
    | pair h => exact hap ⟨[], _, rfl⟩
  have tailap : ∀ {x : Nat} {s : List Nat}, ¬ [a, a, a] <:+: x :: s → ¬ [a, a, a] <:+: s := by
    intro x s h hi
    exact h (hi.trans (List.suffix_cons x s).isInfix)
  induction h with
  | nil => intro t' h' _; cases h'; rfl
  | @keep x s t h ih =>
    intro t' h' h0'
    simp only [List.mem_cons, not_or] at hs
    cases h' with
    | keep _ h' => rw [ih hs.2 (tailap hap) (tail0 h0) h' (tail0 h0')]
    | pair h' => exact (clash h hap h0).elim
  | @pair s t h ih =>
    intro t' h' h0'
    simp only [List.mem_cons, not_or] at hs
    cases h' with
    | keep _ h' => exact (clash h' hap h0').elim
    | pair h' => rw [ih hs.2.2 (tailap (tailap hap)) (tail0 h0) h' (tail0 h0')]

theorem Merged.unique_apart {p : Nat × Nat} {m : Nat} {C C1 C2 : Corpus} (hap : Apart C p) (hc : ∀ s ∈ C, ∀ c ∈ s.1, c < m)
    (h1 : Merged p m C C1) (h2 : Merged p m C C2) : C1 = C2 := by
  by_cases hab : p.1 = p.2
  swap
  · exact h1.unique hab hc h2
  obtain ⟨a, b⟩ := p
  simp only at hab
  subst hab
  unfold Merged at h1 h2
  induction h1 generalizing C2 with
  | nil => cases h2; rfl
  | @cons s t C C1 hst h ih =>
    cases h2 with
    | @cons _ t2 _ C3 hst2 h3 =>
      have hr : m ∉ s.1 := fun hm => absurd (hc s (by simp) m hm) (Nat.lt_irrefl _)
      have e := hst.2.1.unique_apart hr (hap rfl s (by simp)) hst.2.2 hst2.2.1 hst2.2.2
      rw [ih (fun s hs => hc s (by simp [hs])) (fun hq s hs => hap hq s (by simp [hs])) h3]
      congr 1
      exact Prod.ext e (hst.1.symm.trans hst2.1)

theorem CubeFree.apart {C : Corpus} (h : CubeFree C) (p : Nat × Nat) : Apart C p :=
  fun _ s hs hi => h s hs [p.1] (by simp) (by simpa using hi)

/-- merging makes no new blocks that occur three times in a row -/
theorem Merged.cubeFree {p : Nat × Nat} {m : Nat} {C C1 : Corpus} (h : Merged p m C C1) (hc : ∀ s ∈ C, ∀ c ∈ s.1, c < m)
    (hf : CubeFree C) : CubeFree C1 := by
  intro t ht w hw hi
  obtain ⟨s, hs, _, hr, _⟩ := mem_of_forall₂_right h t ht
  have e := hr.expand (fun hm => absurd (hc s hs m hm) (Nat.lt_irrefl _))
  obtain ⟨A, B, hAB⟩ := hi
  refine hf s hs (w.flatMap (expand1 p.1 p.2 m)) ?_ ?_
  · intro h0
    rw [List.flatMap_eq_nil_iff] at h0
    obtain ⟨y, hy⟩ := List.exists_mem_of_ne_nil _ hw
    have := h0 y hy
    unfold expand1 at this
    split at this <;> simp at this
  · rw [← e, ← hAB]
    exact ⟨A.flatMap (expand1 p.1 p.2 m), B.flatMap (expand1 p.1 p.2 m), by simp [List.flatMap_append]⟩

/-! ## the order of the sequences does not matter -/

theorem pairCount_perm {C D : Corpus} (h : C.Perm D) (q : Nat × Nat) : pairCount C q = pairCount D q :=
  (h.map _).sum_eq

theorem IsBest.perm {C D : Corpus} (h : C.Perm D) {p : Nat × Nat} (hb : IsBest C p) : IsBest D p := by
  refine ⟨pairCount_perm h p ▸ hb.1, fun q => ?_⟩
  rw [← pairCount_perm h p, ← pairCount_perm h q]
  exact hb.2 q

theorem Stuck.perm {minEv : Int} {C D : Corpus} (h : C.Perm D) (hs : Stuck minEv C) : Stuck minEv D := by
  rcases hs with ⟨p, hp, hlt⟩ | h0
  · exact Or.inl ⟨p, hp.perm h, pairCount_perm h p ▸ hlt⟩
  · exact Or.inr fun q => pairCount_perm h q ▸ h0 q

theorem CubeFree.perm {C D : Corpus} (h : C.Perm D) (hc : CubeFree C) : CubeFree D :=
  fun s hs => hc s (h.mem_iff.2 hs)

theorem Merged.perm {p : Nat × Nat} {m : Nat} {C D D1 : Corpus} (h : C.Perm D) (hm : Merged p m D D1) :
    ∃ C1, Merged p m C C1 ∧ C1.Perm D1 := by
  induction h generalizing D1 with
  | nil => cases hm; exact ⟨[], .nil, .nil⟩
  | cons x _ ih =>
    cases hm with
    | cons hx hm =>
      obtain ⟨C1, h1, h2⟩ := ih hm
      exact ⟨_, .cons hx h1, h2.cons _⟩
  | swap x y l =>
    cases hm with
    | cons hx hm =>
      cases hm with
      | cons hy hm => exact ⟨_, .cons hy (.cons hx hm), .swap _ _ _⟩
  | trans _ _ ih1 ih2 =>
    obtain ⟨C1, h1, h2⟩ := ih2 hm
    obtain ⟨C2, h3, h4⟩ := ih1 h1
    exact ⟨C2, h3, h4.trans h2⟩

/-- two complete runs from a corpus without blocks repeated three times agree, also if the sequences come in another order -/
theorem Run.det_cubeFree {minEv level : Int} {C C1 : Corpus} {v v1 : List Ty} {k1 : Nat} (h : Run minEv level C v k1 C1 v1) :
    ∀ {k2 n : Nat} {D C2 : Corpus} {v2 : List Ty}, C.Perm D → Run minEv level D v k2 C2 v2 → (∀ s ∈ C, s.1 ≠ [] ∧ 0 < s.2) →
      (∀ s ∈ C, ∀ c ∈ s.1, c < v.length) → CubeFree C → k1 ≤ n → k2 ≤ n → (k1 = n ∨ Stuck minEv C1) → (k2 = n ∨ Stuck minEv C2) →
      k1 = k2 ∧ C1.Perm C2 ∧ v1 = v2 := by
  induction h with
  | refl C v =>
    intro k2 n D C2 v2 hp h2 hs hc hf hk1 hk2 st1 st2
    cases h2 with
    | refl => exact ⟨rfl, hp, rfl⟩
    | step hb hm ha hb2 hmer hr =>
      rcases st1 with st1 | st1
      · omega
      · exact ((st1.perm hp).not_step hb hm).elim
  | @step C Cm C' v v' k p ta tb hb hm ha hb2 hmer hr ih =>
    intro k2 n D C2 v2 hp h2 hs hc hf hk1 hk2 st1 st2
    cases h2 with
    | refl =>
      rcases st2 with st2 | st2
      · omega
      · exact ((st2.perm hp.symm).not_step hb hm).elim
    | @step _ Cm2 _ _ _ k2 p2 ta2 tb2 hbb hmm haa hbb2 hmer2 hr2 =>
      have := hb.unique (hbb.perm hp.symm)
      subst this
      rw [ha] at haa
      rw [hb2] at hbb2
      cases haa
      cases hbb2
      obtain ⟨Cm3, hm3, hpm⟩ := Merged.perm hp hmer2
      have := hmer.unique_apart (hf.apart p) hc hm3
      subst this
      obtain ⟨w1, w2⟩ := hmer.wf hs hc
      rw [← pairCount_perm hp p] at hr2
      have q1 : k = n - 1 ∨ Stuck minEv C' := st1.imp (fun h => by omega) id
      have q2 : k2 = n - 1 ∨ Stuck minEv C2 := st2.imp (fun h => by omega) id
      have := ih hpm hr2 (n := n - 1) w1 (by simpa using w2) (hmer.cubeFree hc hf) (by omega) (by omega) q1 q2
      exact ⟨by omega, this.2⟩

end Verif.Spec
