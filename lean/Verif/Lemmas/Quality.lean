import Verif.Model.Quality
import Verif.Lemmas.Learn
import Verif.Lemmas.Bpe
import Verif.Lemmas.Rounding
import Mathlib.Algebra.Order.BigOperators.Group.List

namespace Verif

/-! ## Earth mover's distance to the uniform distribution -/

theorem sum_abs_sub (l : List ℚ) (c : ℚ) :
    (l.map fun x => |x - c|).sum = l.sum + l.length * c - 2 * (l.map fun x => min x c).sum := by
  induction l with
  | nil => simp
  | cons a l ih =>
    simp only [List.map_cons, List.sum_cons, List.length_cons, ih]
    have : |a - c| = a + c - 2 * min a c := by
      rcases le_total a c with h | h
      · rw [min_eq_left h, abs_of_nonpos (by linarith)]; ring
      · rw [min_eq_right h, abs_of_nonneg (by linarith)]; ring
    rw [this]; push_cast; ring

theorem sum_map_nonneg {α : Type} {l : List α} {f : α → ℚ} (h : ∀ x ∈ l, 0 ≤ f x) : 0 ≤ (l.map f).sum :=
  List.sum_nonneg (by simpa using h)

theorem sum_map_div (l : List ℚ) (S : ℚ) : (l.map fun x => x / S).sum = l.sum / S := by
  induction l with
  | nil => simp
  | cons a l ih => simp only [List.map_cons, List.sum_cons, ih]; ring

theorem exists_ge_mean {l : List ℚ} {c : ℚ} (hl : l ≠ []) (h : l.length * c ≤ l.sum) : ∃ x ∈ l, c ≤ x := by
  by_contra hc
  simp only [not_exists, not_and, not_le] at hc
  have : ∀ l : List ℚ, l ≠ [] → (∀ x ∈ l, x < c) → l.sum < l.length * c := by
    intro l
    induction l with
    | nil => intro h; exact absurd rfl h
    | cons a l ih =>
      intro _ hh
      simp only [List.sum_cons, List.length_cons]
      have ha := hh a (by simp)
      by_cases hl' : l = []
      · subst hl'; simpa using ha
      · have := ih hl' (fun x hx => hh x (by simp [hx]))
        push_cast; linarith
  have := this l hl hc
  linarith

theorem all_zero_of_sum {l : List ℚ} (hn : ∀ x ∈ l, 0 ≤ x) (h : l.sum = 0) : ∀ x ∈ l, x = 0 := by
  induction l with
  | nil => simp
  | cons a l ih =>
    have ha := hn a (by simp)
    have hl : 0 ≤ l.sum := List.sum_nonneg fun x hx => hn x (by simp [hx])
    simp only [List.sum_cons] at h
    intro x hx
    rcases List.mem_cons.1 hx with rfl | hx
    · linarith
    · exact ih (fun y hy => hn y (by simp [hy])) (by linarith) x hx

/-- at least the uniform share is common to a distribution and the uniform one; exactly that much only if one entry holds everything -/
theorem sum_min_ge {l : List ℚ} {c : ℚ} (hc : 0 < c) (hn : ∀ x ∈ l, 0 ≤ x) (hs : l.length * c = l.sum) (hl : l ≠ []) :
    c ≤ (l.map fun x => min x c).sum ∧ ((l.map fun x => min x c).sum = c ↔ l.sum ∈ l) := by
  obtain ⟨x, hx, hcx⟩ := exists_ge_mean hl hs.le
  obtain ⟨a, b, rfl⟩ := List.append_of_mem hx
  have hna : ∀ y ∈ a, 0 ≤ y := fun y hy => hn y (by simp [hy])
  have hnb : ∀ y ∈ b, 0 ≤ y := fun y hy => hn y (by simp [hy])
  have ha : 0 ≤ (a.map fun x => min x c).sum := sum_map_nonneg fun y hy => le_min (hna y hy) hc.le
  have hb : 0 ≤ (b.map fun x => min x c).sum := sum_map_nonneg fun y hy => le_min (hnb y hy) hc.le
  have he : ((a ++ x :: b).map fun x => min x c).sum = (a.map fun x => min x c).sum + c + (b.map fun x => min x c).sum := by
    simp [min_eq_right hcx]; ring
  have key : ∀ l : List ℚ, (∀ y ∈ l, 0 ≤ y) → (l.map fun x => min x c).sum = 0 → ∀ y ∈ l, y = 0 := by
    intro l hl h0 y hy
    have := all_zero_of_sum (l := l.map fun x => min x c) (by simpa using fun z hz => ⟨hl z hz, hc.le⟩) h0
      (min y c) (List.mem_map_of_mem hy)
    rcases min_choice y c with hm | hm <;> rw [hm] at this
    · exact this
    · exact absurd this hc.ne'
  refine ⟨by rw [he]; linarith, ?_⟩
  constructor
  · intro h
    rw [he] at h
    have ha0 := key a hna (by linarith)
    have hb0 := key b hnb (by linarith)
    have : (a ++ x :: b).sum = x := by
      simp [List.sum_eq_zero ha0, List.sum_eq_zero hb0]
    rw [this]; simp
  · intro h
    obtain ⟨a', b', hab⟩ := List.append_of_mem h
    have hs' : (a ++ x :: b).sum = a'.sum + ((a ++ x :: b).sum + b'.sum) := by
      have := congrArg List.sum hab
      generalize (a ++ x :: b).sum = S at *
      simpa using this
    have hna' : ∀ y ∈ a', 0 ≤ y := fun y hy => hn y (by rw [hab]; simp [hy])
    have hnb' : ∀ y ∈ b', 0 ≤ y := fun y hy => hn y (by rw [hab]; simp [hy])
    have ha0 := all_zero_of_sum hna' (by linarith [List.sum_nonneg hna', List.sum_nonneg hnb'])
    have hb0 := all_zero_of_sum hnb' (by linarith [List.sum_nonneg hna', List.sum_nonneg hnb'])
    have hle : c ≤ (a ++ x :: b).sum := by
      have h1 := List.sum_nonneg hna
      have h2 := List.sum_nonneg hnb
      simp only [List.sum_append, List.sum_cons]; linarith
    have hm : ∀ l : List ℚ, (∀ y ∈ l, y = 0) → (l.map fun x => min x c).sum = 0 := by
      intro l hl
      exact List.sum_eq_zero (by
        intro z hz
        obtain ⟨y, hy, rfl⟩ := List.mem_map.1 hz
        rw [hl y hy, min_eq_left hc.le])
    rw [hab]
    generalize (a ++ x :: b).sum = S at *
    simp [hm a' ha0, hm b' hb0, min_eq_right hle]

/-- the distance of a vector of non-negative numbers to the uniform one -/
theorem emd_bounds {l : List ℚ} (hn : ∀ x ∈ l, 0 ≤ x) (hs : 0 < l.sum) :
    0 ≤ (l.map fun x => |x / l.sum - 1 / l.length|).sum ∧
    (l.map fun x => |x / l.sum - 1 / l.length|).sum ≤ 2 * (1 - 1 / l.length) ∧
    ((l.map fun x => |x / l.sum - 1 / l.length|).sum = 0 ↔ ∀ x ∈ l, ∀ y ∈ l, x = y) ∧
    ((l.map fun x => |x / l.sum - 1 / l.length|).sum = 2 * (1 - 1 / l.length) ↔ l.sum ∈ l) := by
  have hl : l ≠ [] := by rintro rfl; simp at hs
  have hk : (0 : ℚ) < l.length := by
    have := List.length_pos_iff.2 hl
    exact_mod_cast this
  have e1 : (l.map fun x => |x / l.sum - 1 / l.length|) =
      (l.map fun x => x / l.sum).map fun x : ℚ => |x - 1 / (l.length : ℚ)| := by
    simp
  have hs1 : (l.map fun x => x / l.sum).sum = 1 := by
    rw [sum_map_div, div_self hs.ne']
  have hl' : (l.map fun x => x / l.sum) ≠ [] := by simpa using hl
  have hn' : ∀ x ∈ (l.map fun x => x / l.sum), 0 ≤ x := by
    intro x hx
    obtain ⟨y, hy, rfl⟩ := List.mem_map.1 hx
    exact div_nonneg (hn y hy) hs.le
  have hm := sum_min_ge (c := 1 / (l.length : ℚ)) (by positivity) hn' (by
    rw [hs1, List.length_map]; field_simp) hl'
  have hmem : (l.map fun x => x / l.sum).sum ∈ (l.map fun x => x / l.sum) ↔ l.sum ∈ l := by
    rw [hs1]
    constructor
    · intro h
      obtain ⟨y, hy, hyy⟩ := List.mem_map.1 h
      rw [div_eq_one_iff_eq hs.ne'] at hyy
      rwa [← hyy]
    · intro h
      exact List.mem_map.2 ⟨_, h, div_self hs.ne'⟩
  rw [hmem] at hm
  have hsum : (l.map fun x => |x / l.sum - 1 / l.length|).sum =
      2 * (1 - ((l.map fun x => x / l.sum).map fun x => min x (1 / (l.length : ℚ))).sum) := by
    rw [e1, sum_abs_sub, hs1, List.length_map]
    field_simp; ring
  refine ⟨sum_map_nonneg fun x _ => abs_nonneg _, ?_, ?_, ?_⟩
  · rw [hsum]; linarith [hm.1]
  · constructor
    · intro h x hx y hy
      have h0 := all_zero_of_sum (by simp) h
      have hx0 := h0 _ (List.mem_map_of_mem hx)
      have hy0 := h0 _ (List.mem_map_of_mem hy)
      rw [abs_eq_zero, sub_eq_zero] at hx0 hy0
      have := hx0.trans hy0.symm
      exact (div_left_inj' hs.ne').1 this
    · intro h
      apply List.sum_eq_zero
      intro z hz
      obtain ⟨x, hx, rfl⟩ := List.mem_map.1 hz
      have : l.sum = l.length * x := by
        have hr : l = List.replicate l.length x := List.eq_replicate_iff.2 ⟨rfl, fun y hy => h y hy x hx⟩
        conv_lhs => rw [hr]
        simp
      rw [abs_eq_zero, sub_eq_zero]
      have hx0 : x ≠ 0 := by rintro rfl; simp at this; exact hs.ne' this
      rw [this]; field_simp
  · rw [hsum, ← hm.2]
    constructor <;> intro h <;> linarith

/-! ## Divergences -/

theorem klLoop_ok {l : List (ℝ × ℝ)} (h : ∀ p ∈ l, 0 ≤ p.1 ∧ (0 < p.1 → 0 < p.2)) (t : ℝ) :
    klLoop l t = .ok (t + (l.map fun p => p.1 * Real.log (p.1 / p.2)).sum) := by
  induction l generalizing t with
  | nil => simp [klLoop]
  | cons p l ih =>
    obtain ⟨a, b⟩ := p
    obtain ⟨h0, h1⟩ := h (a, b) (by simp)
    have hr := fun t => ih (fun q hq => h q (by simp [hq])) t
    simp only [klLoop, List.map_cons, List.sum_cons]
    by_cases hp : 0 < a
    · rw [if_pos hp, if_pos (h1 hp), hr]; congr 1; ring
    · have : a = 0 := le_antisymm (not_lt.1 hp) h0
      rw [if_neg hp, hr, this]; congr 1; simp

theorem klLoop_error {l : List (ℝ × ℝ)} (h : ∃ p ∈ l, 0 < p.1 ∧ p.2 ≤ 0) (t : ℝ) : klLoop l t = .error .assertion := by
  induction l generalizing t with
  | nil => simp at h
  | cons p l ih =>
    obtain ⟨a, b⟩ := p
    simp only [klLoop]
    obtain ⟨q, hq, h1, h2⟩ := h
    by_cases hp : 0 < a
    · rw [if_pos hp]
      by_cases hb : 0 < b
      · rw [if_pos hb]
        rcases List.mem_cons.1 hq with rfl | hq
        · exact absurd hb (not_lt.2 h2)
        · exact ih ⟨q, hq, h1, h2⟩ _
      · rw [if_neg hb]
    · rw [if_neg hp]
      rcases List.mem_cons.1 hq with rfl | hq
      · exact absurd h1 hp
      · exact ih ⟨q, hq, h1, h2⟩ _

/-- one term of the divergence -/
theorem kl_term {p q : ℝ} (hp : 0 ≤ p) (hq : 0 ≤ q) (h : 0 < p → 0 < q) :
    p - q ≤ p * Real.log (p / q) ∧ (p - q = p * Real.log (p / q) → p = q) := by
  rcases hp.eq_or_lt with rfl | hp
  · simp only [zero_sub, zero_mul]
    exact ⟨by linarith, fun h => by linarith⟩
  · have hq := h hp
    have h1 : Real.log (p / q) = - Real.log (q / p) := by rw [← Real.log_inv, inv_div]
    have h2 := Real.log_le_sub_one_of_pos (div_pos hq hp)
    have e : p * (q / p - 1) = q - p := by field_simp
    refine ⟨?_, fun h => ?_⟩
    · rw [h1]
      have := mul_le_mul_of_nonneg_left h2 hp.le
      linarith
    · by_contra hne
      have h3 := Real.log_lt_sub_one_of_pos (div_pos hq hp) (by
        intro h; rw [div_eq_one_iff_eq hp.ne'] at h; exact hne h.symm)
      have := mul_lt_mul_of_pos_left h3 hp
      rw [h1] at h
      linarith

theorem sum_zip_fst (a b : List ℝ) (h : a.length = b.length) (f : ℝ → ℝ) : ((a.zip b).map fun p => f p.1).sum = (a.map f).sum := by
  induction a generalizing b with
  | nil => simp
  | cons x a ih =>
    cases b with
    | nil => simp at h
    | cons y b => simp only [List.zip_cons_cons, List.map_cons, List.sum_cons]; rw [ih b (by simpa using h)]

theorem sum_zip_snd (a b : List ℝ) (h : a.length = b.length) (f : ℝ → ℝ) : ((a.zip b).map fun p => f p.2).sum = (b.map f).sum := by
  induction a generalizing b with
  | nil => cases b <;> simp at h ⊢
  | cons x a ih =>
    cases b with
    | nil => simp at h
    | cons y b => simp only [List.zip_cons_cons, List.map_cons, List.sum_cons]; rw [ih b (by simpa using h)]

/-- sums of pointwise dominated terms, with equality only if every term is equal -/
theorem sum_le_sum_eq {α : Type} {l : List α} {f g : α → ℝ} (h : ∀ x ∈ l, f x ≤ g x) :
    (l.map f).sum ≤ (l.map g).sum ∧ ((l.map f).sum = (l.map g).sum → ∀ x ∈ l, f x = g x) := by
  induction l with
  | nil => simp
  | cons a l ih =>
    obtain ⟨h1, h2⟩ := ih (fun x hx => h x (by simp [hx]))
    have ha := h a (by simp)
    simp only [List.map_cons, List.sum_cons]
    refine ⟨by linarith, fun he x hx => ?_⟩
    rcases List.mem_cons.1 hx with rfl | hx
    · linarith
    · exact h2 (by linarith) x hx

theorem sum_map_sub' {α : Type} (l : List α) (f g : α → ℝ) : (l.map fun x => f x - g x).sum = (l.map f).sum - (l.map g).sum := by
  induction l with
  | nil => simp
  | cons a l ih => simp only [List.map_cons, List.sum_cons, ih]; ring

theorem sum_map_add' {α : Type} (l : List α) (f g : α → ℝ) : (l.map fun x => f x + g x).sum = (l.map f).sum + (l.map g).sum := by
  induction l with
  | nil => simp
  | cons a l ih => simp only [List.map_cons, List.sum_cons, ih]; ring

theorem sum_map_mul' {α : Type} (l : List α) (f : α → ℝ) (c : ℝ) : (l.map fun x => c * f x).sum = c * (l.map f).sum := by
  induction l with
  | nil => simp
  | cons a l ih => simp only [List.map_cons, List.sum_cons, ih]; ring

theorem eq_of_zip {α : Type} {a b : List α} (h : a.length = b.length) (hz : ∀ p ∈ a.zip b, p.1 = p.2) : a = b := by
  induction a generalizing b with
  | nil => cases b <;> simp at h ⊢
  | cons x a ih =>
    cases b with
    | nil => simp at h
    | cons y b =>
      have := hz (x, y) (by simp)
      simp only at this
      rw [this, ih (by simpa using h) (fun p hp => hz p (by simp [hp]))]

theorem zip_self_eq {α : Type} {a : List α} : ∀ p ∈ a.zip a, p.1 = p.2 := by
  intro p hp
  induction a with
  | nil => simp at hp
  | cons x a ih =>
    rcases List.mem_cons.1 (by simpa using hp) with rfl | hp
    · rfl
    · exact ih hp

/-- one side of the Jensen-Shannon divergence, paired up -/
theorem zip_middle (a b : List ℝ) :
    a.zip ((a.zip b).map fun p => 1 / 2 * (p.1 + p.2)) = (a.zip b).map fun p => (p.1, 1 / 2 * (p.1 + p.2)) := by
  induction a generalizing b with
  | nil => simp
  | cons x a ih => cases b with
    | nil => simp
    | cons y b => simp only [List.zip_cons_cons, List.map_cons, ih]

theorem zip_middle' (a b : List ℝ) :
    b.zip ((a.zip b).map fun p => 1 / 2 * (p.1 + p.2)) = (a.zip b).map fun p => (p.2, 1 / 2 * (p.1 + p.2)) := by
  induction a generalizing b with
  | nil => simp
  | cons x a ih => cases b with
    | nil => simp
    | cons y b => simp only [List.zip_cons_cons, List.map_cons, ih]

theorem mem_zip_both {α : Type} {a b : List α} {p : α × α} (h : p ∈ a.zip b) : p.1 ∈ a ∧ p.2 ∈ b :=
  ⟨(List.of_mem_zip h).1, (List.of_mem_zip h).2⟩

/-- the value of the Jensen-Shannon divergence on non-negative vectors of equal length -/
theorem js_kl {a b : List ℝ} (ha : ∀ x ∈ a, 0 ≤ x) (hb : ∀ x ∈ b, 0 ≤ x) :
    klDiv a ((a.zip b).map fun p => 1 / 2 * (p.1 + p.2)) =
      .ok (((a.zip b).map fun p => p.1 * Real.log (p.1 / (1 / 2 * (p.1 + p.2)))).sum) ∧
    klDiv b ((a.zip b).map fun p => 1 / 2 * (p.1 + p.2)) =
      .ok (((a.zip b).map fun p => p.2 * Real.log (p.2 / (1 / 2 * (p.1 + p.2)))).sum) := by
  simp only [klDiv]
  rw [zip_middle, zip_middle', klLoop_ok, klLoop_ok]
  · simp only [List.map_map, zero_add]; exact ⟨rfl, rfl⟩
  · intro p hp
    obtain ⟨q, hq, rfl⟩ := List.mem_map.1 hp
    have h1 := ha _ (mem_zip_both hq).1
    have h2 := hb _ (mem_zip_both hq).2
    exact ⟨h2, fun h => by simp only at h ⊢; linarith⟩
  · intro p hp
    obtain ⟨q, hq, rfl⟩ := List.mem_map.1 hp
    have h1 := ha _ (mem_zip_both hq).1
    have h2 := hb _ (mem_zip_both hq).2
    exact ⟨h1, fun h => by simp only at h ⊢; linarith⟩

theorem js_upper {p q : ℝ} (hp : 0 ≤ p) (hq : 0 ≤ q) : p * Real.log (p / (1 / 2 * (p + q))) ≤ p * Real.log 2 := by
  rcases hp.eq_or_lt with rfl | hp
  · simp
  · refine mul_le_mul_of_nonneg_left (Real.log_le_log (by positivity) ?_) hp.le
    rw [div_le_iff₀ (by positivity)]; linarith

theorem validate_ok {l : List ℝ} (h : validateDistribution true l = .ok ()) : |l.sum - 1| < 1 / 10000 ∧ ∀ x ∈ l, 0 ≤ x := by
  simp only [validateDistribution, if_true] at h
  split at h
  · split at h
    · exact ⟨by assumption, by assumption⟩
    · simp at h
  · simp at h

/-! ## Estimates -/

theorem length_bump {stats out : List Int} {t : Int} (h : bump stats t = .ok out) : out.length = stats.length := by
  simp only [bump] at h
  cases hp : pyIndex stats t with
  | error e => simp [hp] at h
  | ok v => simp only [hp] at h; cases h; simp

theorem bump_ok {stats : List Int} {t : Int} (h0 : 0 ≤ t) (h1 : t < stats.length) :
    ∃ out, bump stats t = .ok out ∧ out.length = stats.length ∧ isum out = isum stats + 1 ∧
      ∀ j : Nat, out[j]? = (stats[j]?).map fun v => v + if (j : Int) = t then 1 else 0 := by
  obtain ⟨n, rfl⟩ := Int.eq_ofNat_of_zero_le h0
  have hn : n < stats.length := by exact_mod_cast h1
  refine ⟨stats.set n (stats[n] + 1), ?_, by simp, ?_, ?_⟩
  · simp only [bump, pyIndex_some (List.getElem?_eq_getElem hn)]
    congr 2
  · rw [isum_eq_sum, isum_eq_sum]
    have e := List.take_append_drop n stats
    rw [List.drop_eq_getElem_cons hn] at e
    have : stats.set n (stats[n] + 1) = stats.take n ++ (stats[n] + 1) :: stats.drop (n + 1) := by
      rw [List.set_eq_take_append_cons_drop, if_pos hn]
    rw [this, List.sum_append, List.sum_cons]
    conv_rhs => rw [← e]
    rw [List.sum_append, List.sum_cons]; ring
  · intro j
    rw [List.getElem?_set]
    by_cases hj : n = j
    · subst hj; simp [hn]
    · rw [if_neg hj]
      have : ¬ ((j : Int) = (n : Int)) := by omega
      simp [this]

theorem bumpAll_ok {ids stats : List Int} (h : ∀ i ∈ ids, 0 ≤ i ∧ i < stats.length) :
    ∃ out, bumpAll ids stats = .ok out ∧ out.length = stats.length ∧ isum out = isum stats + ids.length ∧
      ∀ j : Nat, out[j]? = (stats[j]?).map fun v => v + (ids.count (j : Int) : Int) := by
  induction ids generalizing stats with
  | nil => exact ⟨stats, rfl, rfl, by simp, fun j => by simp⟩
  | cons t ts ih =>
    obtain ⟨o1, a1, a2, a3, a4⟩ := bump_ok (h t (by simp)).1 (h t (by simp)).2
    obtain ⟨o2, b1, b2, b3, b4⟩ := ih (stats := o1) (fun i hi => by rw [a2]; exact h i (by simp [hi]))
    refine ⟨o2, by simp only [bumpAll, a1, b1], by omega, by rw [b3, a3]; push_cast [List.length_cons]; ring, fun j => ?_⟩
    rw [b4, a4, Option.map_map]
    congr 1
    funext v
    simp only [Function.comp, List.count_cons, beq_iff_eq]
    by_cases hj : t = (j : Int)
    · subst hj; simp; ring
    · have : ¬ ((j : Int) = t) := fun h => hj h.symm
      simp [hj, this]

theorem statsLoop_ok {s : Scheme} {lines : List Str} {idss : List (List Int)}
    (he : List.Forall₂ (fun l ids => s.encode l = .ok ids) lines idss) {stats : List Int} (n : Nat)
    (h : ∀ ids ∈ idss, ∀ i ∈ ids, 0 ≤ i ∧ i < stats.length) :
    ∃ out, statsLoop s lines stats n = .ok (out, n + lines.length) ∧ out.length = stats.length ∧
      isum out = isum stats + (idss.flatten).length ∧
      ∀ j : Nat, out[j]? = (stats[j]?).map fun v => v + (idss.flatten.count (j : Int) : Int) := by
  induction he generalizing stats n with
  | nil => exact ⟨stats, rfl, rfl, by simp, fun j => by simp⟩
  | cons h1 _ ih =>
    rename_i l ids ls idss' _
    obtain ⟨o1, a1, a2, a3, a4⟩ := bumpAll_ok (stats := stats) (h ids (by simp))
    obtain ⟨o2, b1, b2, b3, b4⟩ := ih (stats := o1) (n + 1) (fun x hx i hi => by rw [a2]; exact h x (by simp [hx]) i hi)
    refine ⟨o2, ?_, by omega, ?_, fun j => ?_⟩
    · simp only [statsLoop, h1, a1, b1, List.length_cons]; congr 2; omega
    · rw [b3, a3]; simp; ring
    · rw [b4, a4, Option.map_map]
      congr 1
      funext v
      simp [Function.comp]; ring

/-- the id of a piece is that of the unknown type exactly when the piece is not in the vocabulary or is the name of that type -/
theorem idOf_eq_unk {s : Scheme} (hk : s.kind ≠ .clasz) (hv : validateReserved s.table = .ok ()) (p : Str) :
    s.idOf p = 1 ↔ (p ∉ s.table.map (·.name) ∨ p = unkName) := by
  obtain ⟨t0, ht0, hn0⟩ := validateReserved_ok hv 0 (by omega)
  obtain ⟨t1, ht1, hn1⟩ := validateReserved_ok hv 1 (by omega)
  simp only [Scheme.idOf]
  cases h : s.idxToStr.idxOf? p with
  | none =>
    have hmem : p ∉ s.table.map (·.name) := List.idxOf?_eq_none_iff.1 h
    simp only [Scheme.unk, hk, if_false, UNK]
    exact ⟨fun _ => Or.inl hmem, fun _ => rfl⟩
  | some i =>
    obtain ⟨hi, hg, hmin⟩ := List.idxOf?_eq_some_iff.1 h
    have hg' := idxOf?_some_get h
    simp only [Scheme.idxToStr, List.getElem?_map, Option.map_eq_some_iff] at hg'
    obtain ⟨t, ht, hn⟩ := hg'
    have hmem : p ∈ s.table.map (·.name) := List.mem_map.2 ⟨t, List.mem_of_getElem? ht, hn⟩
    simp only [hmem, not_true_eq_false, false_or]
    constructor
    · intro h1
      have : i = 1 := by exact_mod_cast h1
      subst this
      rw [ht1] at ht; cases ht
      rw [← hn, hn1]; rfl
    · rintro rfl
      have h0 : i ≠ 0 := by
        rintro rfl
        rw [ht0] at ht; cases ht
        rw [hn0] at hn; revert hn; decide
      by_contra hne
      have h2 : 1 < i := by
        have : i ≠ 1 := fun h => hne (by exact_mod_cast h)
        omega
      have := hmin 1 h2
      have e : s.idxToStr[1]'(by omega) = unkName := by
        have : s.idxToStr[1]? = some unkName := by
          simp only [Scheme.idxToStr, List.getElem?_map, ht1, Option.map_some, hn1]; rfl
        rw [List.getElem?_eq_getElem (by omega)] at this
        simpa using this
      simp [e] at this

end Verif
