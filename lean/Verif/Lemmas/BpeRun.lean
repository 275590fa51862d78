import Verif.Lemmas.BpeSpec
import Mathlib.Tactic.Linarith
import Mathlib.Tactic.Ring
/-! # Facts on runs of the merge specification -/

namespace Verif.Spec
open Verif

theorem mem_of_forall₂_right {α β : Type} {R : α → β → Prop} {l : List α} {m : List β} (h : List.Forall₂ R l m) :
    ∀ t ∈ m, ∃ s ∈ l, R s t := by
  induction h with
  | nil => simp
  | cons h1 _ ih =>
    intro t ht
    rcases List.mem_cons.1 ht with rfl | ht
    · exact ⟨_, by simp, h1⟩
    · obtain ⟨s, hs, hr⟩ := ih t ht
      exact ⟨s, by simp [hs], hr⟩

theorem Replaces.ne_nil {a b r : Nat} {s t : List Nat} (h : Replaces a b r s t) (hs : s ≠ []) : t ≠ [] := by
  cases h with
  | nil => exact absurd rfl hs
  | keep x h => simp
  | pair h => simp

/-- what a merge keeps: symbols in range, positive weights, non-empty sequences -/
theorem Merged.wf {p : Nat × Nat} {m : Nat} {C C1 : Corpus} (h : Merged p m C C1) (hs : ∀ s ∈ C, s.1 ≠ [] ∧ 0 < s.2)
    (hc : ∀ s ∈ C, ∀ c ∈ s.1, c < m) :
    (∀ s ∈ C1, s.1 ≠ [] ∧ 0 < s.2) ∧ ∀ s ∈ C1, ∀ c ∈ s.1, c < m + 1 := by
  refine ⟨fun t ht => ?_, fun t ht c hct => ?_⟩
  · obtain ⟨s, hsm, h1, h2, _⟩ := mem_of_forall₂_right h t ht
    exact ⟨h2.ne_nil (hs s hsm).1, h1 ▸ (hs s hsm).2⟩
  · obtain ⟨s, hsm, _, h2, _⟩ := mem_of_forall₂_right h t ht
    rcases h2.mem c hct with h | h
    · have := hc s hsm c h; omega
    · omega

theorem IsBest.unique {C : Corpus} {p q : Nat × Nat} (hp : IsBest C p) (hq : IsBest C q) : p = q := by
  obtain ⟨p1, p2⟩ := p
  obtain ⟨q1, q2⟩ := q
  have h1 := hp.2 (q1, q2)
  have h2 := hq.2 (p1, p2)
  simp only [pairLe] at h1 h2
  rw [Prod.mk.injEq]
  omega

theorem Merged.unique {p : Nat × Nat} {m : Nat} {C C1 C2 : Corpus} (hab : p.1 ≠ p.2) (hc : ∀ s ∈ C, ∀ c ∈ s.1, c < m)
    (h1 : Merged p m C C1) (h2 : Merged p m C C2) : C1 = C2 := by
  unfold Merged at h1 h2
  induction h1 generalizing C2 with
  | nil => cases h2; rfl
  | @cons s t C C1 hst h ih =>
    cases h2 with
    | @cons _ t2 _ C3 hst2 h3 =>
      have hr : m ∉ s.1 := fun hm => absurd (hc s (by simp) m hm) (Nat.lt_irrefl _)
      have e := hst.2.1.unique hab hr hst.2.2 hst2.2.1 hst2.2.2
      rw [ih (fun s hs => hc s (by simp [hs])) h3]
      congr 1
      exact Prod.ext e (hst.1.symm.trans hst2.1)

/-- after a merge no pair is more frequent than the pair merged -/
theorem Merged.count_le {p : Nat × Nat} {m : Nat} {C C1 : Corpus} (h : Merged p m C C1) (hb : IsBest C p)
    (hs : ∀ s ∈ C, s.1 ≠ [] ∧ 0 < s.2) (hc : ∀ s ∈ C, ∀ c ∈ s.1, c < m) (q : Nat × Nat) : pairCount C1 q ≤ pairCount C p := by
  have hrel := Rel.of_merged h
  have hf : ∀ s ∈ C, 0 ≤ s.2 := fun s hm => le_of_lt (hs s hm).2
  by_cases hq : q.1 = m ∨ q.2 = m
  · exact Rel.count_new hrel hf (fun s hm h => absurd (hc s hm m h) (Nat.lt_irrefl _)) hq
  · rw [not_or] at hq
    have h1 := Rel.count_le hrel hf hq.1 hq.2
    rcases hb.2 q with h2 | h2
    · omega
    · omega

/-- the corpus reached is well formed -/
theorem Run.wf {minEv level : Int} {C C' : Corpus} {v v' : List Ty} {k : Nat} (h : Run minEv level C v k C' v')
    (hs : ∀ s ∈ C, s.1 ≠ [] ∧ 0 < s.2) (hc : ∀ s ∈ C, ∀ c ∈ s.1, c < v.length) :
    (∀ s ∈ C', s.1 ≠ [] ∧ 0 < s.2) ∧ ∀ s ∈ C', ∀ c ∈ s.1, c < v'.length := by
  induction h with
  | refl => exact ⟨hs, hc⟩
  | step hb hm ha hb2 hmer hr ih =>
    obtain ⟨h1, h2⟩ := hmer.wf hs hc
    exact ih h1 (by simpa using h2)

/-- the table reached extends the initial one by well formed types -/
theorem Run.shape {minEv level : Int} {C C' : Corpus} {v v' : List Ty} {k : Nat} (h : Run minEv level C v k C' v') :
    ∃ new, v' = v ++ new ∧ new.length = k ∧ ∀ i t, new[i]? = some t → t.idx = v.length + i ∧ t.level = level ∧
      minEv ≤ t.freq ∧ 0 < t.freq ∧ ∃ ja jb ta tb, ja < v.length + i ∧ jb < v.length + i ∧ v'[ja]? = some ta ∧ v'[jb]? = some tb ∧
        t.kids = [ta, tb] ∧ t.name = ta.name ++ tb.name := by
  induction h with
  | refl => exact ⟨[], by simp, rfl, by simp⟩
  | @step C C1 C' v v' n p ta tb hb hm ha hb2 hmer hr ih =>
    obtain ⟨new, e, hl, hn⟩ := ih
    refine ⟨_ :: new, by rw [e, List.append_assoc]; rfl, by simp [hl], ?_⟩
    have hla := (List.getElem?_eq_some_iff.1 ha).1
    have hlb := (List.getElem?_eq_some_iff.1 hb2).1
    intro i t ht
    cases i with
    | zero =>
      simp only [List.getElem?_cons_zero, Option.some.injEq] at ht
      subst ht
      refine ⟨rfl, rfl, hm, hb.1, p.1, p.2, ta, tb, hla, hlb, ?_, ?_, rfl, rfl⟩
      · rw [e, List.append_assoc, List.getElem?_append_left hla]; exact ha
      · rw [e, List.append_assoc, List.getElem?_append_left hlb]; exact hb2
    | succ i =>
      simp only [List.getElem?_cons_succ] at ht
      obtain ⟨h1, h2, h3, h4, ja, jb, ta', tb', g1, g2, g3, g4, g5, g6⟩ := hn i t ht
      simp only [List.length_append, List.length_singleton] at h1 g1 g2
      exact ⟨by omega, h2, h3, h4, ja, jb, ta', tb', by omega, by omega, g3, g4, g5, g6⟩

/-- recorded frequencies are non-increasing -/
theorem Run.sorted {minEv level : Int} {C C' : Corpus} {v v' : List Ty} {k : Nat} (h : Run minEv level C v k C' v')
    (hs : ∀ s ∈ C, s.1 ≠ [] ∧ 0 < s.2) (hc : ∀ s ∈ C, ∀ c ∈ s.1, c < v.length) :
    (v'.drop v.length).Pairwise (fun a b => b.freq ≤ a.freq) ∧
    ∀ B, (∀ q, pairCount C q ≤ B) → ∀ t ∈ v'.drop v.length, t.freq ≤ B := by
  induction h with
  | refl => simp
  | @step C C1 C' v v' n p ta tb hb hm ha hb2 hmer hr ih =>
    obtain ⟨h1, h2⟩ := hmer.wf hs hc
    obtain ⟨i1, i2⟩ := ih h1 (by simpa using h2)
    obtain ⟨new, e, _, _⟩ := hr.shape
    have e1 : v'.drop (v ++ [mergedType v ta tb level (pairCount C p)]).length = new := by rw [e, List.drop_left]
    have e2 : v'.drop v.length = mergedType v ta tb level (pairCount C p) :: new := by
      rw [e, List.append_assoc, List.drop_left]; rfl
    rw [e1] at i1 i2
    have i3 := i2 (pairCount C p) (fun q => hmer.count_le hb hs hc q)
    rw [e2]
    refine ⟨List.pairwise_cons.2 ⟨fun t ht => i3 t ht, i1⟩, ?_⟩
    intro B hB t ht
    rcases List.mem_cons.1 ht with rfl | ht
    · exact hB p
    · exact le_trans (i3 t ht) (hB p)

/-- the next step is impossible: the best pair is too rare, or there is no pair -/
def Stuck (minEv : Int) (C : Corpus) : Prop := (∃ p, IsBest C p ∧ pairCount C p < minEv) ∨ ∀ q, pairCount C q = 0

theorem Stuck.not_step {minEv : Int} {C : Corpus} {p : Nat × Nat} (h : Stuck minEv C) (hb : IsBest C p)
    (hm : minEv ≤ pairCount C p) : False := by
  rcases h with ⟨q, hq, hlt⟩ | h
  · have := hq.unique hb
    subst this
    omega
  · have := hb.1
    rw [h p] at this
    omega

/-- two complete runs agree if no merged pair of the first has equal parts -/
theorem Run.det {minEv level : Int} {C C1 : Corpus} {v v1 : List Ty} {k1 : Nat} (h : Run minEv level C v k1 C1 v1) :
    ∀ {k2 n : Nat} {C2 : Corpus} {v2 : List Ty}, Run minEv level C v k2 C2 v2 → (∀ s ∈ C, s.1 ≠ [] ∧ 0 < s.2) →
      (∀ s ∈ C, ∀ c ∈ s.1, c < v.length) → k1 ≤ n → k2 ≤ n → (k1 = n ∨ Stuck minEv C1) → (k2 = n ∨ Stuck minEv C2) →
      (∀ t ∈ v1.drop v.length, ∀ x y, t.kids = [x, y] → x ≠ y) → k1 = k2 ∧ C1 = C2 ∧ v1 = v2 := by
  induction h with
  | refl C v =>
    intro k2 n C2 v2 h2 hs hc hk1 hk2 st1 st2 hd
    cases h2 with
    | refl => exact ⟨rfl, rfl, rfl⟩
    | step hb hm ha hb2 hmer hr =>
      rcases st1 with st1 | st1
      · omega
      · exact (st1.not_step hb hm).elim
  | @step C Cm C' v v' k p ta tb hb hm ha hb2 hmer hr ih =>
    intro k2 n C2 v2 h2 hs hc hk1 hk2 st1 st2 hd
    cases h2 with
    | refl =>
      rcases st2 with st2 | st2
      · omega
      · exact (st2.not_step hb hm).elim
    | @step _ Cm2 _ _ _ k2 p2 ta2 tb2 hbb hmm haa hbb2 hmer2 hr2 =>
      have := hb.unique hbb
      subst this
      rw [ha] at haa
      rw [hb2] at hbb2
      cases haa
      cases hbb2
      obtain ⟨new, e, _, _⟩ := hr.shape
      have e2 : v'.drop v.length = mergedType v ta tb level (pairCount C p) :: new := by
        rw [e, List.append_assoc, List.drop_left]; rfl
      have hne : p.1 ≠ p.2 := by
        intro he
        rw [he, hb2] at ha
        cases ha
        exact hd (mergedType v ta ta level (pairCount C p)) (by rw [e2]; simp) ta ta rfl rfl
      have := hmer.unique hne hc hmer2
      subst this
      obtain ⟨w1, w2⟩ := hmer.wf hs hc
      have e1 : v'.drop (v ++ [mergedType v ta tb level (pairCount C p)]).length = new := by rw [e, List.drop_left]
      have q1 : k = n - 1 ∨ Stuck minEv C' := st1.imp (fun h => by omega) id
      have q2 : k2 = n - 1 ∨ Stuck minEv C2 := st2.imp (fun h => by omega) id
      have := ih hr2 (n := n - 1) w1 (by simpa using w2) (by omega) (by omega) q1 q2 (by
        rw [e1]
        intro t ht
        exact hd t (by rw [e2]; simp [ht]))
      exact ⟨by omega, this.2⟩

theorem Replaces.length_le {a b r : Nat} {s t : List Nat} (h : Replaces a b r s t) : s.length ≤ 2 * t.length := by
  induction h with
  | nil => simp
  | keep x h ih => simp only [List.length_cons]; omega
  | pair h ih => simp only [List.length_cons]; omega

/-- every merge at most halves a sequence -/
theorem Run.length_le {minEv level : Int} {C C' : Corpus} {v v' : List Ty} {k : Nat} (h : Run minEv level C v k C' v') {L : Nat}
    (hL : ∃ s ∈ C, L ≤ s.1.length) : ∃ s ∈ C', L ≤ 2 ^ k * s.1.length := by
  induction h generalizing L with
  | refl => simpa using hL
  | @step C C1 C' v v' n p ta tb hb hm ha hb2 hmer hr ih =>
    obtain ⟨s, hs, hl⟩ := hL
    have : ∃ t ∈ C1, s.1.length ≤ 2 * t.1.length := by
      unfold Merged at hmer
      clear ih hr hb hm
      induction hmer with
      | nil => simp at hs
      | cons h1 _ ih =>
        rcases List.mem_cons.1 hs with rfl | hs
        · exact ⟨_, by simp, h1.2.1.length_le⟩
        · obtain ⟨t, ht, h⟩ := ih hs
          exact ⟨t, by simp [ht], h⟩
    obtain ⟨t, ht, htl⟩ := this
    obtain ⟨u, hu, hul⟩ := ih (L := t.1.length) ⟨t, ht, Nat.le_refl _⟩
    refine ⟨u, hu, ?_⟩
    rw [Nat.pow_succ]
    calc L ≤ 2 * t.1.length := by omega
      _ ≤ 2 * (2 ^ n * u.1.length) := Nat.mul_le_mul_left _ hul
      _ = 2 ^ n * 2 * u.1.length := by ring

/-- no pair is left iff every sequence is a single symbol -/
theorem single_of_no_pairs {C : Corpus} (hs : ∀ s ∈ C, s.1 ≠ [] ∧ 0 < s.2) (h : ∀ q, pairCount C q = 0) :
    ∀ s ∈ C, ∃ c, s.1 = [c] := by
  intro s hsm
  obtain ⟨w, f⟩ := s
  cases w with
  | nil => exact absurd rfl (hs _ hsm).1
  | cons x w =>
    cases w with
    | nil => exact ⟨x, rfl⟩
    | cons y w =>
      exfalso
      have h1 := h (x, y)
      obtain ⟨A, B, rfl⟩ := List.append_of_mem hsm
      have hA : 0 ≤ pairCount A (x, y) := pairCount_nonneg (fun s h => le_of_lt (hs s (by simp [h])).2) _
      have hB : 0 ≤ pairCount B (x, y) := pairCount_nonneg (fun s h => le_of_lt (hs s (by simp [h])).2) _
      have hf := (hs (x :: y :: w, f) hsm).2
      simp only at hf
      have ho : 1 ≤ pairOcc (x, y) (x :: y :: w) := by
        rw [pairOcc]
        have := pairOcc_nonneg (x, y) (y :: w)
        simp; omega
      simp only [pairCount, List.map_append, List.map_cons, List.sum_append, List.sum_cons] at h1 hA hB
      nlinarith

end Verif.Spec
