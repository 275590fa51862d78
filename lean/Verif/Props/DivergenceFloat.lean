import Verif.Model.DivergenceFloat
import Verif.Props.QualityFloat
import Mathlib.Analysis.SpecialFunctions.Log.Deriv
/-!
# C59 in binary64: what rounding does to the divergences
-/

namespace Verif

namespace Spec

/-- `lg` computes the natural logarithm of binary64 numbers with a relative error of at most 2^-50: four units in the last place -/
def LogOf (lg : ℚ → ℚ) : Prop := ∀ x : ℚ, 0 < x → F64 x → |(lg x : ℝ) - Real.log x| ≤ |Real.log x| / 2 ^ 50

end Spec
open Spec

theorem rnd64_err_real (x : ℚ) : |((rnd64 x : ℚ) : ℝ) - x| ≤ |(x : ℝ)| / 2 ^ 53 := by
  have h := rnd64_err x
  have h' : ((|rnd64 x - x| : ℚ) : ℝ) ≤ ((|x| / 2 ^ 53 : ℚ) : ℝ) := by exact_mod_cast h
  push_cast at h'
  exact h'

theorem pow_up_real {n : ℕ} (hn : n ≤ 2 ^ 26) : ((1 : ℝ) + 1 / 2 ^ 53) ^ n - 1 ≤ (n + 1) / 2 ^ 53 ∧ 0 ≤ ((1 : ℝ) + 1 / 2 ^ 53) ^ n - 1 := by
  refine ⟨?_, by
    have := one_le_pow₀ (n := n) (show (1 : ℝ) ≤ 1 + 1 / 2 ^ 53 by norm_num)
    linarith⟩
  have h := pow_up n
  have h' : (((((1 : ℚ) + 1 / 2 ^ 53) ^ n * (1 - n / 2 ^ 53) : ℚ)) : ℝ) ≤ ((1 : ℚ) : ℝ) := Rat.cast_le.2 h
  push_cast at h'
  have hn' : (n : ℝ) ≤ 2 ^ 26 := by exact_mod_cast hn
  have hn0 : (0 : ℝ) ≤ n := by positivity
  by_contra hc
  push Not at hc
  have h2 : 1 + ((n : ℝ) + 1) / 2 ^ 53 < (1 + 1 / 2 ^ 53) ^ n := by linarith
  have h3 : 0 < 1 - (n : ℝ) / 2 ^ 53 := by
    rw [sub_pos, div_lt_one (by norm_num)]; linarith [show (2 : ℝ) ^ 26 < 2 ^ 53 by norm_num]
  have h4 := mul_lt_mul_of_pos_right h2 h3
  have h5 : (1 : ℝ) < 1 + (1 - n * (n + 1) / 2 ^ 53) / 2 ^ 53 := by
    have : (n : ℝ) * (n + 1) < 2 ^ 53 := by nlinarith
    have : (n : ℝ) * (n + 1) / 2 ^ 53 < 1 := by rw [div_lt_one (by norm_num)]; exact this
    have : 0 < (1 - n * ((n : ℝ) + 1) / 2 ^ 53) / 2 ^ 53 := by apply div_pos <;> [linarith; norm_num]
    linarith
  have e : (1 + ((n : ℝ) + 1) / 2 ^ 53) * (1 - n / 2 ^ 53) = 1 + (1 - n * (n + 1) / 2 ^ 53) / 2 ^ 53 := by ring
  rw [e] at h4
  linarith

/-- adding up with rounding, from left to right -/
theorem foldl_rnd_err (l : List ℚ) (acc : ℚ) :
    |((l.foldl (fun t x => rnd64 (t + x)) acc : ℚ) : ℝ) - (acc + (l.map fun x : ℚ => (x : ℝ)).sum)| ≤
      ((1 + 1 / 2 ^ 53) ^ l.length - 1) * (|(acc : ℝ)| + (l.map fun x : ℚ => |(x : ℝ)|).sum) := by
  induction l generalizing acc with
  | nil => simp
  | cons x l ih =>
    have h := ih (rnd64 (acc + x))
    have r := rnd64_err_real (acc + x)
    simp only [List.foldl_cons, List.map_cons, List.sum_cons, List.length_cons]
    generalize ((l.foldl (fun t x => rnd64 (t + x)) (rnd64 (acc + x)) : ℚ) : ℝ) = F at *
    generalize ((rnd64 (acc + x) : ℚ) : ℝ) = a at *
    have hS : 0 ≤ (l.map fun x : ℚ => |(x : ℝ)|).sum := List.sum_nonneg (by simp)
    generalize (l.map fun x : ℚ => |(x : ℝ)|).sum = S at *
    generalize (l.map fun x : ℚ => (x : ℝ)).sum = T at *
    have hG : 0 ≤ ((1 : ℝ) + 1 / 2 ^ 53) ^ l.length - 1 := by
      have := one_le_pow₀ (n := l.length) (show (1 : ℝ) ≤ 1 + 1 / 2 ^ 53 by norm_num)
      linarith
    rw [pow_succ]
    generalize ((1 : ℝ) + 1 / 2 ^ 53) ^ l.length = G at *
    push_cast at r
    have h0 : |(acc : ℝ) + x| ≤ |(acc : ℝ)| + |(x : ℝ)| := abs_add_le _ _
    have hA := abs_nonneg (acc : ℝ)
    have hX := abs_nonneg (x : ℝ)
    have h1 : |a| ≤ (|(acc : ℝ)| + |(x : ℝ)|) * (1 + 1 / 2 ^ 53) := by
      have : |a| ≤ |a - (acc + x)| + |(acc : ℝ) + x| := by
        have := abs_add_le (a - (acc + x)) ((acc : ℝ) + x)
        rwa [sub_add_cancel] at this
      linarith
    have h2 : |F - (acc + (x + T))| ≤ |F - (a + T)| + |a - (acc + x)| := by
      have := abs_add_le (F - (a + T)) (a - (acc + x))
      rwa [show F - (a + T) + (a - (acc + x)) = F - (acc + (x + T)) by ring] at this
    have h3 : (G - 1) * (|a| + S) ≤ (G - 1) * ((|(acc : ℝ)| + |(x : ℝ)|) * (1 + 1 / 2 ^ 53) + S) :=
      mul_le_mul_of_nonneg_left (by linarith) hG
    have h4 : (G * (1 + 1 / 2 ^ 53) - 1) * (|(acc : ℝ)| + (|(x : ℝ)| + S)) =
        (G - 1) * ((|(acc : ℝ)| + |(x : ℝ)|) * (1 + 1 / 2 ^ 53) + S) + (|(acc : ℝ)| + |(x : ℝ)|) / 2 ^ 53 + G * S / 2 ^ 53 := by ring
    have h5 : 0 ≤ G * S / 2 ^ 53 := by
      have : 0 ≤ G := by linarith
      positivity
    rw [h4]
    linarith

/-- the logarithm of a number known with a small relative error -/
theorem log_near {r r' : ℝ} (hr : 0 < r) (h : |r' - r| ≤ r / 2 ^ 53) : |Real.log r' - Real.log r| ≤ 2 / 2 ^ 53 := by
  rw [abs_le] at h
  have h0 : 0 < r' := by
    have : r / 2 ^ 53 < r := by rw [div_lt_iff₀ (by norm_num)]; nlinarith
    linarith [h.1]
  have a1 := Real.log_le_sub_one_of_pos (div_pos h0 hr)
  have a2 := Real.log_le_sub_one_of_pos (div_pos hr h0)
  rw [Real.log_div h0.ne' hr.ne'] at a1
  rw [Real.log_div hr.ne' h0.ne'] at a2
  have b1 : r' / r ≤ 1 + 1 / 2 ^ 53 := by
    rw [div_le_iff₀ hr]; linarith [h.2]
  have b2 : r / r' ≤ 1 + 2 / 2 ^ 53 := by
    rw [div_le_iff₀ h0]
    have : r * (1 - 1 / 2 ^ 53) ≤ r' := by linarith [h.1]
    nlinarith
  rw [abs_le]
  constructor <;> linarith

theorem F64_rnd64 (x : ℚ) : F64 (rnd64 x) := (rnd64_nearest x).f64

theorem rnd64_of_F64 {x : ℚ} (h : F64 x) : rnd64 x = x := by
  have := (rnd64_nearest x).near x h
  rw [sub_self, abs_zero] at this
  have := abs_nonpos_iff.1 this
  linarith

/-- one term of the loop, when the second vector is known up to rounding -/
theorem kl_term_float {lg : ℚ → ℚ} (hlg : LogOf lg) {p q : ℚ} {m : ℝ} (hp : 0 < p) (hq : 0 < q) (hm : 0 < m) (hqm : |(q : ℝ) - m| ≤ m / 2 ^ 53) :
    |((rnd64 (p * lg (rnd64 (p / q))) : ℚ) : ℝ) - p * Real.log (p / m)| ≤ (10 * ((p : ℝ) * |Real.log (p / m)|) + 5 * p) / 2 ^ 53 := by
  have hp' : (0 : ℝ) < p := by exact_mod_cast hp
  have hq' : (0 : ℝ) < q := by exact_mod_cast hq
  have hr : 0 < p / q := div_pos hp hq
  have hr' : (0 : ℝ) < p / q := div_pos hp' hq'
  have e1 := rnd64_err_real (p / q)
  have e0 := rnd64_nonneg hr
  have eF := hlg _ e0 (F64_rnd64 (p / q))
  push_cast at e1
  rw [abs_of_pos hr'] at e1
  have e2 := log_near hr' e1
  have e3 := log_near hm hqm
  have e4 := rnd64_err_real (p * lg (rnd64 (p / q)))
  push_cast at e4
  generalize lg (rnd64 (p / q)) = l at *
  generalize ((rnd64 (p * l) : ℚ) : ℝ) = c at *
  generalize Real.log ((rnd64 (p / q) : ℚ) : ℝ) = L' at *
  rw [Real.log_div hp'.ne' hq'.ne'] at e2
  have e5 : Real.log ((p : ℝ) / m) = Real.log p - Real.log m := Real.log_div hp'.ne' hm.ne'
  rw [e5]
  rw [abs_mul, abs_of_pos hp'] at e4
  generalize Real.log (p : ℝ) = lp at *
  generalize Real.log (q : ℝ) = lq at *
  generalize Real.log m = lm at *
  have d1 : |L' - (lp - lm)| ≤ 4 / 2 ^ 53 := by
    rw [abs_le] at e2 e3 ⊢
    constructor <;> linarith [e2.1, e2.2, e3.1, e3.2]
  have d2 : |L'| ≤ |lp - lm| + 4 / 2 ^ 53 := by
    have := abs_add_le (L' - (lp - lm)) (lp - lm)
    rw [sub_add_cancel] at this
    linarith
  have hL := abs_nonneg (lp - lm)
  generalize |lp - lm| = A at *
  have d3 : |(l : ℝ)| ≤ |L'| * (1 + 1 / 2 ^ 50) := by
    have := abs_add_le ((l : ℝ) - L') L'
    rw [sub_add_cancel] at this
    linarith
  have d4 : |c - p * (lp - lm)| ≤ |c - p * l| + p * |(l : ℝ) - L'| + p * |L' - (lp - lm)| := by
    have h1 := abs_add_le (c - p * l) (p * ((l : ℝ) - L') + p * (L' - (lp - lm)))
    have h2 := abs_add_le (p * ((l : ℝ) - L')) (p * (L' - (lp - lm)))
    rw [abs_mul, abs_mul, abs_of_pos hp'] at h2
    rw [show c - p * l + (p * ((l : ℝ) - L') + p * (L' - (lp - lm))) = c - p * (lp - lm) by ring] at h1
    linarith
  have d5 : p * |(l : ℝ) - L'| ≤ p * (|L'| / 2 ^ 50) := mul_le_mul_of_nonneg_left eF hp'.le
  have d6 : p * |L' - (lp - lm)| ≤ p * (4 / 2 ^ 53) := mul_le_mul_of_nonneg_left d1 hp'.le
  have d7 : p * |(l : ℝ)| ≤ p * ((A + 4 / 2 ^ 53) * (1 + 1 / 2 ^ 50)) :=
    mul_le_mul_of_nonneg_left (d3.trans (mul_le_mul_of_nonneg_right d2 (by norm_num))) hp'.le
  have d8 : (p : ℝ) * (|L'| / 2 ^ 50) ≤ p * ((A + 4 / 2 ^ 53) / 2 ^ 50) :=
    mul_le_mul_of_nonneg_left (div_le_div_of_nonneg_right d2 (by norm_num)) hp'.le
  have hpA : 0 ≤ p * A := by positivity
  have : p * ((A + 4 / 2 ^ 53) * (1 + 1 / 2 ^ 50)) / 2 ^ 53 + p * ((A + 4 / 2 ^ 53) / 2 ^ 50) + p * (4 / 2 ^ 53) ≤ (10 * (p * A) + 5 * p) / 2 ^ 53 := by
    nlinarith
  have h9 : p * |(l : ℝ)| / 2 ^ 53 ≤ p * ((A + 4 / 2 ^ 53) * (1 + 1 / 2 ^ 50)) / 2 ^ 53 := div_le_div_of_nonneg_right d7 (by norm_num)
  linarith

/-- the loop adds up rounded terms -/
theorem klLoopF_ok {lg : ℚ → ℚ} {l : List (ℚ × ℚ)} (h : ∀ x ∈ l, 0 < x.1 → 0 < x.2) (t : ℚ) :
    klLoopF lg l t = .ok (((l.filter fun x => decide (0 < x.1)).map fun x => rnd64 (x.1 * lg (rnd64 (x.1 / x.2)))).foldl (fun t x => rnd64 (t + x)) t) := by
  induction l generalizing t with
  | nil => simp [klLoopF]
  | cons x l ih =>
    obtain ⟨p, q⟩ := x
    have ih' := fun t => ih (fun x hx => h x (by simp [hx])) t
    simp only [klLoopF]
    by_cases hp : 0 < p
    · have hq : 0 < q := h (p, q) (by simp) hp
      rw [if_pos hp, if_pos hq, ih', List.filter_cons_of_pos (by simpa using hp)]
      rfl
    · rw [if_neg hp, ih', List.filter_cons_of_neg (by simpa using hp)]

theorem klLoopF_error {lg : ℚ → ℚ} {l : List (ℚ × ℚ)} (h : ∃ x ∈ l, 0 < x.1 ∧ x.2 ≤ 0) (t : ℚ) : klLoopF lg l t = .error .assertion := by
  induction l generalizing t with
  | nil => simp at h
  | cons p l ih =>
    obtain ⟨a, b⟩ := p
    simp only [klLoopF]
    obtain ⟨q, hq, h1, h2⟩ := h
    by_cases hp : 0 < a
    · rw [if_pos hp]
      by_cases hb : 0 < b
      · rw [if_pos hb]
        rcases List.mem_cons.1 hq with rfl | hq
        · exact absurd hb (not_lt.2 h2)
        · exact ih ⟨q, hq, h1, h2⟩ _
      · rw [if_neg hb]
    · rw [if_neg hp]
      rcases List.mem_cons.1 hq with rfl | hq
      · exact absurd h1 hp
      · exact ih ⟨q, hq, h1, h2⟩ _

theorem abs_sum_sub_le_real {α : Type} {l : List α} {f g h : α → ℝ} (H : ∀ x ∈ l, |f x - g x| ≤ h x) :
    |(l.map f).sum - (l.map g).sum| ≤ (l.map h).sum := by
  induction l with
  | nil => simp
  | cons a l ih =>
    have h1 := H a (by simp)
    have h2 := ih fun x hx => H x (by simp [hx])
    simp only [List.map_cons, List.sum_cons]
    have := abs_add_le (f a - g a) ((l.map f).sum - (l.map g).sum)
    rw [show f a - g a + ((l.map f).sum - (l.map g).sum) = f a + (l.map f).sum - (g a + (l.map g).sum) by ring] at this
    linarith

theorem sum_filter_pos {α : Type} (l : List α) (c : α → Bool) (f : α → ℝ) (h : ∀ x ∈ l, c x = false → f x = 0) :
    ((l.filter c).map f).sum = (l.map f).sum := by
  induction l with
  | nil => simp
  | cons a l ih =>
    have ih' := ih fun x hx => h x (by simp [hx])
    cases hc : c a with
    | true => rw [List.filter_cons_of_pos hc]; simp [ih']
    | false => rw [List.filter_cons_of_neg (by simp [hc])]; simp [ih', h a (by simp) hc]

/-- the whole loop, when the second vector is known up to rounding: `m` gives its exact values -/
theorem klLoopF_near {lg : ℚ → ℚ} (hlg : LogOf lg) {α : Type} {l : List α} {p q : α → ℚ} {m : α → ℝ} (hp : ∀ x ∈ l, 0 ≤ p x)
    (h : ∀ x ∈ l, 0 < p x → 0 < q x ∧ 0 < m x ∧ |(q x : ℝ) - m x| ≤ m x / 2 ^ 53) (hn : l.length ≤ 2 ^ 26) :
    ∃ v, klLoopF lg (l.map fun x => (p x, q x)) 0 = .ok v ∧ |(v : ℝ) - (l.map fun x => (p x : ℝ) * Real.log (p x / m x)).sum| ≤
      ((l.length + 12) * (l.map fun x => (p x : ℝ) * |Real.log (p x / m x)|).sum + 6 * (l.map fun x => (p x : ℝ)).sum) / 2 ^ 53 := by
  refine ⟨_, klLoopF_ok (by
    intro x hx
    obtain ⟨a, ha, rfl⟩ := List.mem_map.1 hx
    exact fun hpa => (h a ha hpa).1) 0, ?_⟩
  rw [List.filter_map, List.map_map]
  have hz : ∀ x ∈ l, decide (0 < p x) = false → (p x : ℝ) = 0 := by
    intro x hx hd
    have := le_antisymm (not_lt.1 (of_decide_eq_false hd)) (hp x hx)
    exact_mod_cast this
  have s1 := sum_filter_pos l (fun x => decide (0 < p x)) (fun x => (p x : ℝ) * Real.log (p x / m x)) (fun x hx hd => by simp [hz x hx hd])
  have s2 := sum_filter_pos l (fun x => decide (0 < p x)) (fun x => (p x : ℝ) * |Real.log (p x / m x)|) (fun x hx hd => by simp [hz x hx hd])
  have s3 := sum_filter_pos l (fun x => decide (0 < p x)) (fun x => (p x : ℝ)) hz
  rw [← s1, ← s2, ← s3]
  have hlen : (l.filter fun x => decide (0 < p x)).length ≤ l.length := List.length_filter_le _ _
  have hmem : ∀ x ∈ l.filter fun x => decide (0 < p x), 0 < p x ∧ 0 < q x ∧ 0 < m x ∧ |(q x : ℝ) - m x| ≤ m x / 2 ^ 53 := by
    intro x hx
    rw [List.mem_filter] at hx
    have := of_decide_eq_true hx.2
    exact ⟨this, h x hx.1 this⟩
  have hfun : ((fun x : ℚ × ℚ => decide (0 < x.1)) ∘ fun x => (p x, q x)) = fun x => decide (0 < p x) := rfl
  rw [hfun]
  generalize (l.filter fun x => decide (0 < p x)) = k at *
  have hk := pow_up_real (hlen.trans hn)
  have f := foldl_rnd_err (k.map ((fun x : ℚ × ℚ => rnd64 (x.1 * lg (rnd64 (x.1 / x.2)))) ∘ fun x => (p x, q x))) 0
  generalize (((k.map ((fun x : ℚ × ℚ => rnd64 (x.1 * lg (rnd64 (x.1 / x.2)))) ∘ fun x => (p x, q x))).foldl (fun t x => rnd64 (t + x)) 0 : ℚ) : ℝ) = F at *
  rw [List.map_map, List.map_map, List.length_map] at f
  have t := fun x hx => kl_term_float hlg (hmem x hx).1 (hmem x hx).2.1 (hmem x hx).2.2.1 (hmem x hx).2.2.2
  have d1 := abs_sum_sub_le_real (l := k) (f := fun x => ((rnd64 (p x * lg (rnd64 (p x / q x))) : ℚ) : ℝ))
    (g := fun x => (p x : ℝ) * Real.log (p x / m x)) t
  have d2 : (k.map fun x => |((rnd64 (p x * lg (rnd64 (p x / q x))) : ℚ) : ℝ)|).sum ≤
      (k.map fun x => (p x : ℝ) * |Real.log (p x / m x)| + (10 * ((p x : ℝ) * |Real.log (p x / m x)|) + 5 * p x) / 2 ^ 53).sum := by
    apply List.sum_le_sum
    intro x hx
    have h1 := t x hx
    have h2 := abs_add_le (((rnd64 (p x * lg (rnd64 (p x / q x))) : ℚ) : ℝ) - p x * Real.log (p x / m x)) (p x * Real.log (p x / m x))
    rw [sub_add_cancel, abs_mul (p x : ℝ), abs_of_pos (show (0 : ℝ) < p x by exact_mod_cast (hmem x hx).1)] at h2
    linarith
  have e1 : (k.map fun x => (10 * ((p x : ℝ) * |Real.log (p x / m x)|) + 5 * p x) / 2 ^ 53).sum =
      (10 * (k.map fun x => (p x : ℝ) * |Real.log (p x / m x)|).sum + 5 * (k.map fun x => (p x : ℝ)).sum) / 2 ^ 53 := by
    clear * -
    induction k with
    | nil => simp
    | cons a k ih => simp only [List.map_cons, List.sum_cons, ih]; ring
  rw [sum_map_add', e1] at d2
  rw [e1] at d1
  have hS : 0 ≤ (k.map fun x => (p x : ℝ) * |Real.log (p x / m x)|).sum := List.sum_nonneg (by
    intro z hz
    obtain ⟨x, hx, rfl⟩ := List.mem_map.1 hz
    have : (0 : ℝ) < p x := by exact_mod_cast (hmem x hx).1
    positivity)
  have hP : 0 ≤ (k.map fun x => (p x : ℝ)).sum := List.sum_nonneg (by
    intro z hz
    obtain ⟨x, hx, rfl⟩ := List.mem_map.1 hz
    exact_mod_cast (hmem x hx).1.le)
  have f' : |F - (k.map fun x => ((rnd64 (p x * lg (rnd64 (p x / q x))) : ℚ) : ℝ)).sum| ≤
      ((1 + 1 / 2 ^ 53) ^ k.length - 1) * (k.map fun x => |((rnd64 (p x * lg (rnd64 (p x / q x))) : ℚ) : ℝ)|).sum := by
    have : (((0 : ℚ) : ℝ)) = 0 := Rat.cast_zero
    rw [this, abs_zero, zero_add, zero_add] at f
    exact f
  clear f
  have hC : 0 ≤ (k.map fun x => |((rnd64 (p x * lg (rnd64 (p x / q x))) : ℚ) : ℝ)|).sum := List.sum_nonneg (by simp)
  generalize (k.map fun x => (p x : ℝ) * |Real.log (p x / m x)|).sum = S at *
  generalize (k.map fun x => (p x : ℝ)).sum = P at *
  generalize (k.map fun x => (p x : ℝ) * Real.log (p x / m x)).sum = T at *
  generalize (k.map fun x => |((rnd64 (p x * lg (rnd64 (p x / q x))) : ℚ) : ℝ)|).sum = C at *
  generalize (k.map fun x => ((rnd64 (p x * lg (rnd64 (p x / q x))) : ℚ) : ℝ)).sum = D at *
  have hn1 : (k.length : ℝ) ≤ l.length := by exact_mod_cast hlen
  have hn2 : (l.length : ℝ) ≤ 2 ^ 26 := by exact_mod_cast hn
  have g0 : ((1 : ℝ) + 1 / 2 ^ 53) ^ k.length - 1 ≤ (l.length + 1) / 2 ^ 53 := hk.1.trans (div_le_div_of_nonneg_right (by linarith) (by norm_num))
  have g0' := hk.2
  generalize ((1 : ℝ) + 1 / 2 ^ 53) ^ k.length - 1 = G at *
  generalize (l.length : ℝ) = n at *
  have hn0 : 0 ≤ n := le_trans (Nat.cast_nonneg _) hn1
  have g1 : G * C ≤ (n + 1) / 2 ^ 53 * (S + (10 * S + 5 * P) / 2 ^ 53) :=
    mul_le_mul g0 d2 hC (by positivity)
  have g2 : |F - T| ≤ |F - D| + |D - T| := by
    have := abs_add_le (F - D) (D - T)
    rwa [sub_add_sub_cancel] at this
  have g3 : (n + 1) / 2 ^ 53 * (S + (10 * S + 5 * P) / 2 ^ 53) ≤ ((n + 2) * S + P) / 2 ^ 53 := by
    have h1 : (n + 1) * ((10 * S + 5 * P) / 2 ^ 53) ≤ S + P := by
      have : (n + 1) * (10 * S + 5 * P) ≤ (2 ^ 26 + 1) * (10 * S + 5 * P) := mul_le_mul_of_nonneg_right (by linarith) (by positivity)
      rw [← mul_div_assoc, div_le_iff₀ (by norm_num)]
      nlinarith
    have : (n + 1) / 2 ^ 53 * (S + (10 * S + 5 * P) / 2 ^ 53) = ((n + 1) * S + (n + 1) * ((10 * S + 5 * P) / 2 ^ 53)) / 2 ^ 53 := by ring
    rw [this]
    apply div_le_div_of_nonneg_right _ (by norm_num)
    linarith
  have : ((n + 12) * S + 6 * P) / 2 ^ 53 = ((n + 2) * S + P) / 2 ^ 53 + (10 * S + 5 * P) / 2 ^ 53 := by ring
  rw [this]
  linarith

/-! ## C59: `kl_div` -/

/-- C59 in binary64: with a logarithm within four units in the last place, `kl_div` of non-negative vectors of at most 2^26 numbers, the second positive
wherever the first is, gives the divergence of these very numbers up to an error of at most ((n + 12) S + 6 P) / 2^53, where S adds up the sizes of the
exact terms and P the first vector; it is exactly 0 for equal vectors. -/
theorem C59_kl_float {lg : ℚ → ℚ} (hlg : LogOf lg) {p q : List ℚ} (hp : ∀ x ∈ p, 0 ≤ x) (hac : ∀ x ∈ p.zip q, 0 < x.1 → 0 < x.2)
    (hn : (p.zip q).length ≤ 2 ^ 26) :
    ∃ v, klF64 lg p q = .ok v ∧ |(v : ℝ) - ((p.zip q).map fun x => (x.1 : ℝ) * Real.log (x.1 / x.2)).sum| ≤
        (((p.zip q).length + 12) * ((p.zip q).map fun x => (x.1 : ℝ) * |Real.log (x.1 / x.2)|).sum +
          6 * ((p.zip q).map fun x => (x.1 : ℝ)).sum) / 2 ^ 53 ∧
      (p = q → v = 0) := by
  obtain ⟨v, h1, h2⟩ := klLoopF_near hlg (l := p.zip q) (p := fun x => x.1) (q := fun x => x.2) (m := fun x => (x.2 : ℝ))
    (fun x hx => hp _ (mem_zip_both hx).1) (fun x hx h => by
      have := hac x hx h
      have h' : (0 : ℝ) < x.2 := by exact_mod_cast this
      refine ⟨this, h', ?_⟩
      rw [sub_self, abs_zero]; positivity) hn
  have e : (p.zip q).map (fun x => (x.1, x.2)) = p.zip q := by simp
  rw [e] at h1
  refine ⟨v, h1, h2, ?_⟩
  rintro rfl
  have hz : ∀ l : List (ℚ × ℚ), (∀ x ∈ l, x.1 = x.2) → klLoopF lg l 0 = .ok 0 := by
    intro l
    induction l with
    | nil => intro _; rfl
    | cons x l ih =>
      intro h
      obtain ⟨a, b⟩ := x
      have hab : a = b := h (a, b) (by simp)
      subst hab
      have ih' := ih fun x hx => h x (by simp [hx])
      simp only [klLoopF]
      by_cases ha : 0 < a
      · have h1 : lg 1 = 0 := by
          have := hlg 1 one_pos ⟨1, 0, by norm_num, by norm_num⟩
          simp only [Rat.cast_one, Real.log_one, sub_zero, abs_zero, zero_div] at this
          have := abs_nonpos_iff.1 this
          exact_mod_cast this
        have hr : rnd64 1 = 1 := by have := rnd64_rounding.nat 1 (by norm_num); simpa using this
        rw [if_pos ha, if_pos ha, div_self ha.ne', hr, h1, mul_zero, rnd64_zero, add_zero, rnd64_zero, ih']
      · rw [if_neg ha, ih']
  have := hz (p.zip p) zip_self_eq
  rw [this] at h1
  cases h1
  rfl

/-- C59 in binary64: a zero of the second vector where the first is positive is refused. -/
theorem C59_kl_float_refuses {lg : ℚ → ℚ} {p q : List ℚ} (h : ∃ x ∈ p.zip q, 0 < x.1 ∧ x.2 ≤ 0) : klF64 lg p q = .error .assertion :=
  klLoopF_error h 0

example : ∃ x ∈ ([1 / 2, 1 / 2] : List ℚ).zip [1, 0], 0 < x.1 ∧ x.2 ≤ 0 := ⟨(1 / 2, 0), by simp, by norm_num, le_refl _⟩

/-! ## C59: `js_div` -/

theorem validateF64_iff {npSum : List ℚ → ℚ} {l : List ℚ} :
    validateF64 npSum true l = .ok () ↔ |rnd64 (npSum l - 1)| < rnd64 (1 / 10000) ∧ ∀ x ∈ l, 0 ≤ x := by
  simp only [validateF64, if_true, absF_eq]
  have e : l.countP (fun x => decide (x < 0)) = 0 ↔ ∀ x ∈ l, 0 ≤ x := by
    rw [List.countP_eq_zero]
    simp
  by_cases h : |rnd64 (npSum l - 1)| < rnd64 (1 / 10000)
  · rw [if_pos h]
    by_cases h2 : ∀ x ∈ l, 0 ≤ x
    · rw [if_pos (e.2 h2)]; exact ⟨fun _ => ⟨h, h2⟩, fun _ => rfl⟩
    · rw [if_neg (fun hc => h2 (e.1 hc))]
      constructor
      · intro hc; cases hc
      · exact fun hc => absurd hc.2 h2
  · rw [if_neg h]
    constructor
    · intro hc; cases hc
    · exact fun hc => absurd hc.1 h

/-- C59 in binary64: which vectors of at most 2^26 numbers `validate_distribution` accepts, whatever the order in which numpy adds: those without
negative numbers whose exact sum is 1 up to 1/10010, and none whose exact sum differs from 1 by 1/9990 or more. -/
theorem C59_validate_float {npSum : List ℚ → ℚ} (hS : ∀ l, RoundedSum rnd64 l (npSum l)) {l : List ℚ} (hn : l.length ≤ 2 ^ 26) :
    ((∀ x ∈ l, 0 ≤ x) → |l.sum - 1| ≤ 1 / 10010 → validateF64 npSum true l = .ok ()) ∧
    (validateF64 npSum true l = .ok () → (∀ x ∈ l, 0 ≤ x) ∧ |l.sum - 1| < 1 / 9990) := by
  have key : (∀ x ∈ l, 0 ≤ x) → l.sum ≤ 2 → |npSum l - l.sum| ≤ 1 / 2 ^ 25 := by
    intro h0 h2
    obtain ⟨b1, b2⟩ := RoundedSum.bounds (hS l) h0
    have s0 := List.sum_nonneg h0
    have hn' : (l.length : ℚ) ≤ 2 ^ 26 := by exact_mod_cast hn
    have pd := pow_down l.length
    have pu := pow_up l.length
    have hd : 1 - (1 : ℚ) / 2 ^ 27 ≤ (1 - 1 / 2 ^ 53) ^ l.length := by
      have : (l.length : ℚ) / 2 ^ 53 ≤ 2 ^ 26 / 2 ^ 53 := div_le_div_of_nonneg_right hn' (by norm_num)
      have e : (2 : ℚ) ^ 26 / 2 ^ 53 = 1 / 2 ^ 27 := by norm_num
      linarith
    have hu : ((1 : ℚ) + 1 / 2 ^ 53) ^ l.length ≤ 1 + 1 / 2 ^ 26 := by
      by_contra hc
      push Not at hc
      have h1 : 1 - (1 : ℚ) / 2 ^ 27 ≤ 1 - l.length / 2 ^ 53 := by
        have : (l.length : ℚ) / 2 ^ 53 ≤ 2 ^ 26 / 2 ^ 53 := div_le_div_of_nonneg_right hn' (by norm_num)
        have e : (2 : ℚ) ^ 26 / 2 ^ 53 = 1 / 2 ^ 27 := by norm_num
        linarith
      have h2 : ((1 : ℚ) + 1 / 2 ^ 53) ^ l.length * (1 - 1 / 2 ^ 27) ≤ 1 :=
        le_trans (mul_le_mul_of_nonneg_left h1 (by positivity)) pu
      have h3 := mul_lt_mul_of_pos_right hc (show (0 : ℚ) < 1 - 1 / 2 ^ 27 by norm_num)
      have h4 : (1 : ℚ) < (1 + 1 / 2 ^ 26) * (1 - 1 / 2 ^ 27) := by norm_num
      linarith
    have c1 := mul_le_mul_of_nonneg_left hd s0
    have c2 := mul_le_mul_of_nonneg_left hu s0
    rw [abs_le]
    have e : (1 : ℚ) / 2 ^ 25 = 2 * (1 / 2 ^ 26) := by norm_num
    have e' : (1 : ℚ) / 2 ^ 27 ≤ 1 / 2 ^ 26 := by norm_num
    constructor <;> nlinarith
  have r4 : |rnd64 (1 / 10000) - 1 / 10000| ≤ 1 / 10000 / 2 ^ 53 := by
    have := rnd64_err (1 / 10000)
    rwa [abs_of_pos (show (0 : ℚ) < 1 / 10000 by norm_num)] at this
  rw [abs_le] at r4
  have re := rnd64_err (npSum l - 1)
  rw [validateF64_iff]
  constructor
  · intro h0 h1
    refine ⟨?_, h0⟩
    rw [abs_le] at h1
    have k := key h0 (by linarith [h1.2])
    rw [abs_le] at k
    have a1 : |npSum l - 1| ≤ 1 / 10010 + 1 / 2 ^ 25 := by
      rw [abs_le]; constructor <;> linarith [k.1, k.2, h1.1, h1.2]
    have a2 : |rnd64 (npSum l - 1)| ≤ |npSum l - 1| + |npSum l - 1| / 2 ^ 53 := by
      have := abs_add_le (rnd64 (npSum l - 1) - (npSum l - 1)) (npSum l - 1)
      rw [sub_add_cancel] at this
      linarith
    have a3 : (1 / 10010 + 1 / 2 ^ 25 : ℚ) + (1 / 10010 + 1 / 2 ^ 25) / 2 ^ 53 < 1 / 10000 - 1 / 10000 / 2 ^ 53 := by norm_num
    have a4 : |npSum l - 1| / 2 ^ 53 ≤ (1 / 10010 + 1 / 2 ^ 25) / 2 ^ 53 := div_le_div_of_nonneg_right a1 (by norm_num)
    linarith [r4.1]
  · rintro ⟨h1, h0⟩
    refine ⟨h0, ?_⟩
    have a2 : |npSum l - 1| ≤ |rnd64 (npSum l - 1)| + |npSum l - 1| / 2 ^ 53 := by
      have := abs_add_le ((npSum l - 1) - rnd64 (npSum l - 1)) (rnd64 (npSum l - 1))
      rw [sub_add_cancel, abs_sub_comm (npSum l - 1) (rnd64 (npSum l - 1))] at this
      linarith
    have a3 : |npSum l - 1| ≤ 1 / 9990 - 1 / 2 ^ 24 := by
      by_contra hc
      push Not at hc
      have : (1 / 9990 - 1 / 2 ^ 24) * (1 - 1 / 2 ^ 53) < |npSum l - 1| * (1 - 1 / 2 ^ 53) := mul_lt_mul_of_pos_right hc (by norm_num)
      have e : (1 / 10000 : ℚ) + 1 / 10000 / 2 ^ 53 < (1 / 9990 - 1 / 2 ^ 24) * (1 - 1 / 2 ^ 53) := by norm_num
      linarith [r4.2]
    rw [abs_le] at a3
    have hs : l.sum ≤ 2 := by
      by_contra hc
      push Not at hc
      have b1 := (RoundedSum.bounds (hS l) h0).1
      have pd := pow_down l.length
      have hn' : (l.length : ℚ) ≤ 2 ^ 26 := by exact_mod_cast hn
      have hd : (3 / 4 : ℚ) ≤ (1 - 1 / 2 ^ 53) ^ l.length := by
        have : (l.length : ℚ) / 2 ^ 53 ≤ 2 ^ 26 / 2 ^ 53 := div_le_div_of_nonneg_right hn' (by norm_num)
        have e : (2 : ℚ) ^ 26 / 2 ^ 53 ≤ 1 / 4 := by norm_num
        linarith
      have : 2 * (3 / 4 : ℚ) ≤ l.sum * (1 - 1 / 2 ^ 53) ^ l.length := mul_le_mul hc.le hd (by norm_num) (by linarith)
      have e : (1 / 9990 : ℚ) - 1 / 2 ^ 24 < 1 / 2 := by norm_num
      linarith [a3.2]
    have k := key h0 hs
    rw [abs_le] at k
    rw [abs_lt]
    have e : (1 : ℚ) / 2 ^ 25 < 1 / 2 ^ 24 := by norm_num
    constructor <;> linarith [k.1, k.2, a3.1, a3.2]

/-- the size of a term of the divergence from the middle -/
theorem js_abs {p q : ℝ} (hp : 0 ≤ p) (hq : 0 ≤ q) : p * |Real.log (p / (1 / 2 * (p + q)))| ≤ p + q / 2 := by
  rcases hp.eq_or_lt with rfl | hp
  · simp only [zero_mul, zero_add]; linarith
  · have hm : 0 < 1 / 2 * (p + q) := by positivity
    have hr := div_pos hp hm
    rcases le_total 0 (Real.log (p / (1 / 2 * (p + q)))) with h | h
    · rw [abs_of_nonneg h]
      have h1 := js_upper hp.le hq
      have h2 : Real.log 2 ≤ 1 := by have := Real.log_le_sub_one_of_pos (show (0 : ℝ) < 2 by norm_num); linarith
      have := mul_le_mul_of_nonneg_left h2 hp.le
      linarith
    · rw [abs_of_nonpos h]
      have h1 := (kl_term hp.le hm.le (fun _ => hm)).1
      linarith

theorem rnd64_half (x : ℚ) : rnd64 (1 / 2 * rnd64 x) = 1 / 2 * rnd64 x := by
  have h1 := rnd64_rounding.dbl (1 / 2 * x)
  rw [show 2 * (1 / 2 * x) = x by ring] at h1
  have h2 : 1 / 2 * rnd64 x = rnd64 (1 / 2 * x) := by rw [h1]; ring
  rw [h2, rnd64_rounding.idem]

theorem rnd64_middle (x : ℚ) : rnd64 (1 / 2 * rnd64 (x + x)) = rnd64 x := by
  rw [rnd64_half, ← two_mul, rnd64_rounding.dbl x]
  ring

theorem zip_middle_self {p : List ℚ} (hF : ∀ x ∈ p, F64 x) : ((p.zip p).map fun x => rnd64 (1 / 2 * rnd64 (x.1 + x.2))) = p := by
  induction p with
  | nil => rfl
  | cons c p ih =>
    rw [List.zip_cons_cons, List.map_cons]
    exact congrArg₂ List.cons ((rnd64_middle c).trans (rnd64_of_F64 (hF c (by simp)))) (ih fun x hx => hF x (by simp [hx]))

theorem klLoopF_exc {lg : ℚ → ℚ} {l : List (ℚ × ℚ)} : ∀ {t : ℚ} {e : Exc}, klLoopF lg l t = .error e → e = .assertion := by
  induction l with
  | nil => intro t e h; simp [klLoopF] at h
  | cons x l ih =>
    intro t e h
    obtain ⟨p, q⟩ := x
    simp only [klLoopF] at h
    split at h
    · split at h
      · exact ih h
      · cases h; rfl
    · exact ih h

/-- C59 in binary64: `js_div` is symmetric, failures included. -/
theorem C59_js_float_symmetric (npSum : List ℚ → ℚ) (lg : ℚ → ℚ) (npFloat : Bool) (p q : List ℚ) :
    jsF64 npSum lg npFloat p q = jsF64 npSum lg npFloat q p := by
  cases npFloat with
  | false => simp [jsF64, validateF64]
  | true =>
    have herr : ∀ l : List ℚ, validateF64 npSum true l = .ok () ∨ validateF64 npSum true l = .error .assertion := by
      intro l
      simp only [validateF64, if_true]
      split
      · split <;> simp
      · simp
    simp only [jsF64]
    rcases herr p with hp | hp <;> rcases herr q with hq | hq <;> simp only [hp, hq]
    by_cases hl : p.length = q.length
    · rw [if_pos hl, if_pos hl.symm]
      have e : ((q.zip p).map fun x => rnd64 (1 / 2 * rnd64 (x.1 + x.2))) = (p.zip q).map fun x => rnd64 (1 / 2 * rnd64 (x.1 + x.2)) := by
        rw [← List.zip_swap, List.map_map]
        apply List.map_congr_left
        intro x _
        simp only [Function.comp, Prod.fst_swap, Prod.snd_swap]
        rw [add_comm]
      rw [e]
      generalize ((p.zip q).map fun x => rnd64 (1 / 2 * rnd64 (x.1 + x.2))) = m
      have hx : ∀ l, (∃ v, klF64 lg l m = .ok v) ∨ klF64 lg l m = .error .assertion := by
        intro l
        cases h : klF64 lg l m with
        | ok v => exact Or.inl ⟨v, rfl⟩
        | error e => rw [klF64] at h; rw [klLoopF_exc h]; exact Or.inr rfl
      rcases hx p with ⟨a, ha⟩ | ha <;> rcases hx q with ⟨b, hb⟩ | hb <;> simp only [ha, hb]
      rw [add_comm]
    · rw [if_neg hl, if_neg (fun h => hl h.symm)]

/-- C59 in binary64: with a numpy that has `np.float`, a logarithm within four units in the last place and additions in any order, `js_div` of two accepted
vectors of the same length n ≤ 2^26 differs from the exact value by at most (2 n + 32) / 2^53; so it is never below 0 nor above `ln 2` times the mean of the
two sums by more than this, and it is exactly 0 for equal vectors of binary64 numbers. -/
theorem C59_js_float {npSum : List ℚ → ℚ} (hS : ∀ l, RoundedSum rnd64 l (npSum l)) {lg : ℚ → ℚ} (hlg : LogOf lg) {p q : List ℚ}
    (hl : p.length = q.length) (hn : p.length ≤ 2 ^ 26) (hp : validateF64 npSum true p = .ok ()) (hq : validateF64 npSum true q = .ok ()) :
    ∃ v, jsF64 npSum lg true p q = .ok v ∧
      |(v : ℝ) - 1 / 2 * (((p.zip q).map fun x => (x.1 : ℝ) * Real.log (x.1 / (1 / 2 * (x.1 + x.2)))).sum +
        ((p.zip q).map fun x => (x.2 : ℝ) * Real.log (x.2 / (1 / 2 * (x.1 + x.2)))).sum)| ≤ (2 * p.length + 32) / 2 ^ 53 ∧
      -((2 * p.length + 32) / 2 ^ 53) ≤ (v : ℝ) ∧ (v : ℝ) ≤ ((p.sum + q.sum : ℚ) : ℝ) / 2 * Real.log 2 + (2 * p.length + 32) / 2 ^ 53 ∧
      ((∀ x ∈ p, F64 x) → p = q → v = 0) := by
  obtain ⟨p0, ps⟩ := (C59_validate_float hS hn).2 hp
  obtain ⟨q0, qs⟩ := (C59_validate_float hS (hl ▸ hn)).2 hq
  rw [abs_lt] at ps qs
  have hzl : (p.zip q).length = p.length := by rw [List.length_zip, ← hl, min_self]
  have hmem : ∀ x ∈ p.zip q, (0 : ℚ) ≤ x.1 ∧ (0 : ℚ) ≤ x.2 := fun x hx => ⟨p0 _ (mem_zip_both hx).1, q0 _ (mem_zip_both hx).2⟩
  have hmem' : ∀ x ∈ p.zip q, (0 : ℝ) ≤ x.1 ∧ (0 : ℝ) ≤ x.2 := fun x hx => ⟨by exact_mod_cast (hmem x hx).1, by exact_mod_cast (hmem x hx).2⟩
  have hmid : ∀ x ∈ p.zip q, 0 < x.1 + x.2 → 0 < rnd64 (1 / 2 * rnd64 (x.1 + x.2)) ∧ (0 : ℝ) < 1 / 2 * (x.1 + x.2) ∧
      |((rnd64 (1 / 2 * rnd64 (x.1 + x.2)) : ℚ) : ℝ) - 1 / 2 * (x.1 + x.2)| ≤ 1 / 2 * (x.1 + x.2) / 2 ^ 53 := by
    intro x hx h
    rw [rnd64_half]
    have h' : (0 : ℝ) < x.1 + x.2 := by exact_mod_cast h
    have r := rnd64_err_real (x.1 + x.2)
    push_cast at r ⊢
    rw [abs_of_pos h'] at r
    refine ⟨mul_pos (by norm_num) (rnd64_nonneg h), by positivity, ?_⟩
    rw [← mul_sub, abs_mul, abs_of_pos (show (0 : ℝ) < 1 / 2 by norm_num)]
    linarith
  obtain ⟨a, a1, a2⟩ := klLoopF_near hlg (l := p.zip q) (p := fun x => x.1) (q := fun x => rnd64 (1 / 2 * rnd64 (x.1 + x.2)))
    (m := fun x => 1 / 2 * ((x.1 : ℝ) + x.2)) (fun x hx => (hmem x hx).1) (fun x hx h => hmid x hx (by linarith [(hmem x hx).2])) (by omega)
  obtain ⟨b, b1, b2⟩ := klLoopF_near hlg (l := p.zip q) (p := fun x => x.2) (q := fun x => rnd64 (1 / 2 * rnd64 (x.1 + x.2)))
    (m := fun x => 1 / 2 * ((x.1 : ℝ) + x.2)) (fun x hx => (hmem x hx).2) (fun x hx h => hmid x hx (by linarith [(hmem x hx).1])) (by omega)
  have ea : p.zip ((p.zip q).map fun x => rnd64 (1 / 2 * rnd64 (x.1 + x.2))) = (p.zip q).map fun x => (x.1, rnd64 (1 / 2 * rnd64 (x.1 + x.2))) := by
    clear * - hl
    induction p generalizing q with
    | nil => simp
    | cons c p ih => cases q with
      | nil => simp
      | cons d q => simp only [List.zip_cons_cons, List.map_cons]; rw [ih (by simpa using hl)]
  have eb : q.zip ((p.zip q).map fun x => rnd64 (1 / 2 * rnd64 (x.1 + x.2))) = (p.zip q).map fun x => (x.2, rnd64 (1 / 2 * rnd64 (x.1 + x.2))) := by
    clear * - hl
    induction p generalizing q with
    | nil => simp
    | cons c p ih => cases q with
      | nil => simp
      | cons d q => simp only [List.zip_cons_cons, List.map_cons]; rw [ih (by simpa using hl)]
  have ha : klF64 lg p ((p.zip q).map fun x => rnd64 (1 / 2 * rnd64 (x.1 + x.2))) = .ok a := by rw [klF64, ea]; exact a1
  have hb : klF64 lg q ((p.zip q).map fun x => rnd64 (1 / 2 * rnd64 (x.1 + x.2))) = .ok b := by rw [klF64, eb]; exact b1
  have hv : jsF64 npSum lg true p q = .ok (rnd64 (1 / 2 * rnd64 (a + b))) := by
    simp only [jsF64, hp, hq, hl, if_true, ha, hb]
  have hfst : ((p.zip q).map fun x => (x.1 : ℝ)).sum = ((p.sum : ℚ) : ℝ) := by
    clear * - hl
    induction p generalizing q with
    | nil => simp
    | cons c p ih => cases q with
      | nil => simp at hl
      | cons d q => simp only [List.zip_cons_cons, List.map_cons, List.sum_cons, Rat.cast_add]; rw [ih (by simpa using hl)]
  have hsnd : ((p.zip q).map fun x => (x.2 : ℝ)).sum = ((q.sum : ℚ) : ℝ) := by
    clear * - hl
    induction p generalizing q with
    | nil => cases q with
      | nil => simp
      | cons d q => simp at hl
    | cons c p ih => cases q with
      | nil => simp at hl
      | cons d q => simp only [List.zip_cons_cons, List.map_cons, List.sum_cons, Rat.cast_add]; rw [ih (by simpa using hl)]
  -- the exact values
  have low : 0 ≤ ((p.zip q).map fun x => (x.1 : ℝ) * Real.log (x.1 / (1 / 2 * (x.1 + x.2)))).sum +
        ((p.zip q).map fun x => (x.2 : ℝ) * Real.log (x.2 / (1 / 2 * (x.1 + x.2)))).sum := by
    rw [← sum_map_add']
    apply List.sum_nonneg
    intro z hz
    obtain ⟨x, hx, rfl⟩ := List.mem_map.1 hz
    obtain ⟨h1, h2⟩ := hmem' x hx
    have t1 := kl_term (q := 1 / 2 * ((x.1 : ℝ) + x.2)) h1 (by linarith) (fun h => by linarith)
    have t2 := kl_term (q := 1 / 2 * ((x.1 : ℝ) + x.2)) h2 (by linarith) (fun h => by linarith)
    linarith [t1.1, t2.1]
  have up : ((p.zip q).map fun x => (x.1 : ℝ) * Real.log (x.1 / (1 / 2 * (x.1 + x.2)))).sum +
        ((p.zip q).map fun x => (x.2 : ℝ) * Real.log (x.2 / (1 / 2 * (x.1 + x.2)))).sum ≤ (((p.sum : ℚ) : ℝ) + ((q.sum : ℚ) : ℝ)) * Real.log 2 := by
    have a := (sum_le_sum_eq (l := p.zip q) (f := fun x => (x.1 : ℝ) * Real.log (x.1 / (1 / 2 * (x.1 + x.2)))) (g := fun x => Real.log 2 * (x.1 : ℝ))
      (fun x hx => by have := js_upper (hmem' x hx).1 (hmem' x hx).2; linarith)).1
    have b := (sum_le_sum_eq (l := p.zip q) (f := fun x => (x.2 : ℝ) * Real.log (x.2 / (1 / 2 * (x.1 + x.2)))) (g := fun x => Real.log 2 * (x.2 : ℝ))
      (fun x hx => by have := js_upper (hmem' x hx).2 (hmem' x hx).1; rw [add_comm (x.2 : ℝ) x.1] at this; linarith)).1
    rw [sum_map_mul', hfst] at a
    rw [sum_map_mul', hsnd] at b
    linarith
  have sa : ((p.zip q).map fun x => (x.1 : ℝ) * |Real.log (x.1 / (1 / 2 * (x.1 + x.2)))|).sum ≤ ((p.sum : ℚ) : ℝ) + 1 / 2 * ((q.sum : ℚ) : ℝ) := by
    rw [← hfst, ← hsnd, ← sum_map_mul', ← sum_map_add']
    apply List.sum_le_sum
    intro x hx
    have := js_abs (hmem' x hx).1 (hmem' x hx).2
    linarith
  have sb : ((p.zip q).map fun x => (x.2 : ℝ) * |Real.log (x.2 / (1 / 2 * (x.1 + x.2)))|).sum ≤ 1 / 2 * ((p.sum : ℚ) : ℝ) + ((q.sum : ℚ) : ℝ) := by
    rw [← hfst, ← hsnd, ← sum_map_mul', ← sum_map_add']
    apply List.sum_le_sum
    intro x hx
    have := js_abs (hmem' x hx).2 (hmem' x hx).1
    rw [add_comm (x.2 : ℝ) x.1] at this
    linarith
  have hP : ((p.sum : ℚ) : ℝ) ≤ 1 + 1 / 9990 := by
    have : p.sum ≤ 1 + 1 / 9990 := by linarith [ps.2]
    exact ((Rat.cast_le (K := ℝ)).2 this).trans (by norm_num)
  have hQ : ((q.sum : ℚ) : ℝ) ≤ 1 + 1 / 9990 := by
    have : q.sum ≤ 1 + 1 / 9990 := by linarith [qs.2]
    exact ((Rat.cast_le (K := ℝ)).2 this).trans (by norm_num)
  have hP0 : (0 : ℝ) ≤ ((p.sum : ℚ) : ℝ) := by exact_mod_cast List.sum_nonneg p0
  have hQ0 : (0 : ℝ) ≤ ((q.sum : ℚ) : ℝ) := by exact_mod_cast List.sum_nonneg q0
  have hlog : Real.log 2 ≤ 1 := by have := Real.log_le_sub_one_of_pos (show (0 : ℝ) < 2 by norm_num); linarith
  have hlog0 : 0 ≤ Real.log 2 := Real.log_nonneg (by norm_num)
  simp only [hzl, hfst] at a2
  simp only [hzl, hsnd] at b2
  have main : |((rnd64 (1 / 2 * rnd64 (a + b)) : ℚ) : ℝ) - 1 / 2 * (((p.zip q).map fun x => (x.1 : ℝ) * Real.log (x.1 / (1 / 2 * (x.1 + x.2)))).sum +
        ((p.zip q).map fun x => (x.2 : ℝ) * Real.log (x.2 / (1 / 2 * (x.1 + x.2)))).sum)| ≤ (2 * p.length + 32) / 2 ^ 53 := by
    rw [rnd64_half]
    have r := rnd64_err_real (a + b)
    push_cast at r ⊢
    have hn0 : (0 : ℝ) ≤ p.length := by positivity
    have hn1 : (p.length : ℝ) ≤ 2 ^ 26 := by exact_mod_cast hn
    generalize ((p.zip q).map fun x => (x.1 : ℝ) * Real.log (x.1 / (1 / 2 * (x.1 + x.2)))).sum = A at *
    generalize ((p.zip q).map fun x => (x.2 : ℝ) * Real.log (x.2 / (1 / 2 * (x.1 + x.2)))).sum = B at *
    generalize ((p.zip q).map fun x => (x.1 : ℝ) * |Real.log (x.1 / (1 / 2 * (x.1 + x.2)))|).sum = SA at *
    generalize ((p.zip q).map fun x => (x.2 : ℝ) * |Real.log (x.2 / (1 / 2 * (x.1 + x.2)))|).sum = SB at *
    generalize ((p.sum : ℚ) : ℝ) = P at *
    generalize ((q.sum : ℚ) : ℝ) = Q at *
    generalize (p.length : ℝ) = n at *
    generalize ((rnd64 (a + b) : ℚ) : ℝ) = R at *
    have u1 : (n + 12) * SA ≤ (n + 12) * (16 / 10) := mul_le_mul_of_nonneg_left (by linarith) (by linarith)
    have u2 : (n + 12) * SB ≤ (n + 12) * (16 / 10) := mul_le_mul_of_nonneg_left (by linarith) (by linarith)
    have v1 : |(a : ℝ) - A| ≤ ((n + 12) * (16 / 10) + 7) / 2 ^ 53 := a2.trans (div_le_div_of_nonneg_right (by linarith) (by norm_num))
    have v2 : |(b : ℝ) - B| ≤ ((n + 12) * (16 / 10) + 7) / 2 ^ 53 := b2.trans (div_le_div_of_nonneg_right (by linarith) (by norm_num))
    have w : |(a : ℝ) + b - (A + B)| ≤ 2 * (((n + 12) * (16 / 10) + 7) / 2 ^ 53) := by
      rw [abs_le] at v1 v2 ⊢
      constructor <;> linarith [v1.1, v1.2, v2.1, v2.2]
    have x1 : |A + B| ≤ 21 / 10 := by
      rw [abs_of_nonneg low]
      have : (P + Q) * Real.log 2 ≤ (P + Q) * 1 := mul_le_mul_of_nonneg_left hlog (by linarith)
      linarith
    have y0 : 2 * (((n + 12) * (16 / 10) + 7) / 2 ^ 53) ≤ 1 / 10 := by
      rw [← mul_div_assoc, div_le_iff₀ (by norm_num)]
      nlinarith
    have x2 : |(a : ℝ) + b| ≤ 22 / 10 := by
      have := abs_add_le ((a : ℝ) + b - (A + B)) (A + B)
      rw [sub_add_cancel] at this
      linarith
    have x3 : |R - (a + b)| ≤ 22 / 10 / 2 ^ 53 := r.trans (div_le_div_of_nonneg_right x2 (by norm_num))
    have e : (2 * n + 32) / 2 ^ 53 = 1 / 2 * (2 * ((2 * n + 32) / 2 ^ 53)) := by ring
    have z : |R - (A + B)| ≤ 2 * ((2 * n + 32) / 2 ^ 53) := by
      have h1 := abs_add_le (R - (a + b)) ((a : ℝ) + b - (A + B))
      rw [sub_add_sub_cancel] at h1
      have h2 : 22 / 10 / 2 ^ 53 + 2 * (((n + 12) * (16 / 10) + 7) / 2 ^ 53) ≤ 2 * ((2 * n + 32) / 2 ^ 53) := by
        have : 22 / 10 / 2 ^ 53 + 2 * (((n + 12) * (16 / 10) + 7) / 2 ^ 53) = (22 / 10 + 2 * ((n + 12) * (16 / 10) + 7)) / 2 ^ 53 := by ring
        rw [this, ← mul_div_assoc 2 (2 * n + 32) ((2 : ℝ) ^ 53)]
        apply div_le_div_of_nonneg_right _ (by norm_num)
        linarith
      linarith
    rw [← mul_sub, abs_mul, abs_of_pos (show (0 : ℝ) < 1 / 2 by norm_num), e]
    linarith
  refine ⟨_, hv, main, ?_, ?_, ?_⟩
  · rw [abs_le] at main
    linarith [main.1]
  · rw [abs_le] at main
    rw [Rat.cast_add]
    linarith [main.2]
  · intro hF hpq
    clear * - hF hpq ha hb p0 hlg hn hzl
    subst hpq
    have hm := zip_middle_self hF
    have hac : ∀ x ∈ p.zip p, (0 : ℚ) < x.1 → 0 < x.2 := fun x hx h => by rw [← zip_self_eq x hx]; exact h
    obtain ⟨w, w1, _, w2⟩ := C59_kl_float hlg p0 hac (by omega)
    rw [hm] at ha hb
    rw [w1] at ha hb
    cases ha
    cases hb
    rw [w2 rfl, add_zero, rnd64_zero, mul_zero, rnd64_zero]

/-! ## the logarithm near 1, and what goes wrong -/

/-- there is such a logarithm -/
theorem logOf_exists : ∃ lg : ℚ → ℚ, LogOf lg := by
  have h : ∀ x : ℚ, ∃ y : ℚ, |(y : ℝ) - Real.log x| ≤ |Real.log x| / 2 ^ 50 := by
    intro x
    by_cases h0 : Real.log x = 0
    · exact ⟨0, by simp [h0]⟩
    · have : Real.log x - |Real.log x| / 2 ^ 50 < Real.log x + |Real.log x| / 2 ^ 50 := by
        have := abs_pos.2 h0
        have : 0 < |Real.log (x : ℝ)| / 2 ^ 50 := by positivity
        linarith
      obtain ⟨y, h1, h2⟩ := exists_rat_btwn this
      exact ⟨y, by rw [abs_le]; constructor <;> linarith⟩
  choose lg hlg using h
  exact ⟨lg, fun x _ _ => hlg x⟩

/-- such a logarithm of a number next to 1 is almost the difference -/
theorem logOf_near_one {lg : ℚ → ℚ} (hlg : LogOf lg) {t : ℚ} (ht : |t| ≤ 1 / 2 ^ 20) (hF : F64 (1 + t)) : |lg (1 + t) - t| ≤ |t| / 100 := by
  have ht' : |(t : ℝ)| ≤ 1 / 2 ^ 20 := by
    have := (Rat.cast_le (K := ℝ)).2 ht
    push_cast at this
    exact this
  have ht'' := abs_le.1 ht'
  have hpos : (0 : ℝ) < 1 + t := by linarith [ht''.1, show (1 : ℝ) / 2 ^ 20 < 1 by norm_num]
  have h := hlg (1 + t) (by exact_mod_cast hpos) hF
  push_cast at h
  have l1 := Real.log_le_sub_one_of_pos hpos
  have l2 := Real.one_sub_inv_le_log_of_pos hpos
  have e : 1 - ((1 : ℝ) + t)⁻¹ = t / (1 + t) := by field_simp; ring
  rw [e] at l2
  have key : |Real.log (1 + t) - t| ≤ |(t : ℝ)| / 1000 := by
    have h1 : t - t / (1 + t) ≤ |(t : ℝ)| / 1000 := by
      have e2 : (t : ℝ) - t / (1 + t) = t ^ 2 / (1 + t) := by field_simp; ring
      rw [e2, div_le_iff₀ hpos, ← sq_abs]
      have : |(t : ℝ)| ^ 2 ≤ |(t : ℝ)| * (1 / 2 ^ 20) := by
        rw [pow_two]; exact mul_le_mul_of_nonneg_left ht' (abs_nonneg _)
      have : |(t : ℝ)| / 1000 * (1 / 2) ≤ |(t : ℝ)| / 1000 * (1 + t) :=
        mul_le_mul_of_nonneg_left (by linarith [ht''.1, show (1 : ℝ) / 2 ^ 20 < 1 / 2 by norm_num]) (by positivity)
      have := abs_nonneg (t : ℝ)
      nlinarith
    have := abs_nonneg (t : ℝ)
    rw [abs_le]
    constructor <;> linarith
  have a1 : |Real.log (1 + (t : ℝ))| ≤ |(t : ℝ)| * 2 := by
    have := abs_add_le (Real.log (1 + (t : ℝ)) - t) t
    rw [sub_add_cancel] at this
    linarith [abs_nonneg (t : ℝ)]
  have a2 : |((lg (1 + t) : ℚ) : ℝ) - t| ≤ |(t : ℝ)| / 100 := by
    have h1 := abs_add_le (((lg (1 + t) : ℚ) : ℝ) - Real.log (1 + t)) (Real.log (1 + t) - t)
    rw [sub_add_sub_cancel] at h1
    have h2 : |Real.log (1 + (t : ℝ))| / 2 ^ 50 ≤ |(t : ℝ)| * 2 / 2 ^ 50 := div_le_div_of_nonneg_right a1 (by norm_num)
    have h3 : |(t : ℝ)| * 2 / 2 ^ 50 ≤ |(t : ℝ)| / 1000 := by
      have := abs_nonneg (t : ℝ)
      rw [div_le_div_iff₀ (by norm_num) (by norm_num)]
      nlinarith
    linarith [abs_nonneg (t : ℝ)]
  have : ((|lg (1 + t) - t| : ℚ) : ℝ) ≤ ((|t| / 100 : ℚ) : ℝ) := by
    push_cast
    exact a2
  exact_mod_cast this

/-- C59 in binary64: `kl_div` is not always non-negative. Whatever the logarithm (within four units in the last place), two distributions of sum exactly 1
that differ in the last places have a negative divergence. -/
theorem C59_kl_float_refuted : ∃ p q : List ℚ, p.length = q.length ∧ p.sum = 1 ∧ q.sum = 1 ∧ (∀ x ∈ p ++ q, 0 < x ∧ F64 x) ∧
    ∀ lg, LogOf lg → ∃ v, klF64 lg p q = .ok v ∧ v < 0 := by
  refine ⟨[1 / 4, 3 / 4], [1 / 4 + 1 / 2 ^ 52, 3 / 4 - 1 / 2 ^ 52], rfl, by norm_num, by norm_num, ?_, ?_⟩
  · intro x hx
    simp only [List.cons_append, List.nil_append, List.mem_cons, List.not_mem_nil, or_false] at hx
    rcases hx with rfl | rfl | rfl | rfl
    · exact ⟨by norm_num, 1, -2, by norm_num, by norm_num⟩
    · exact ⟨by norm_num, 3, -2, by norm_num, by norm_num⟩
    · exact ⟨by norm_num, 2 ^ 50 + 1, -52, by norm_num, by norm_num⟩
    · exact ⟨by norm_num, 3 * 2 ^ 50 - 1, -52, by norm_num, by norm_num⟩
  · intro lg hlg
    have r1 : rnd64 (1 / 4 / (1 / 4 + 1 / 2 ^ 52)) = 1 + -(1 / 2 ^ 50) := by decide +kernel
    have r2 : rnd64 (3 / 4 / (3 / 4 - 1 / 2 ^ 52)) = 1 + 1 / 2 ^ 52 := by decide +kernel
    have l1 := logOf_near_one hlg (t := -(1 / 2 ^ 50)) (by norm_num) ⟨2 ^ 50 - 1, -50, by norm_num, by norm_num⟩
    have l2 := logOf_near_one hlg (t := 1 / 2 ^ 52) (by norm_num) ⟨2 ^ 52 + 1, -52, by norm_num, by norm_num⟩
    refine ⟨rnd64 (rnd64 (0 + rnd64 (1 / 4 * lg (1 + -(1 / 2 ^ 50)))) + rnd64 (3 / 4 * lg (1 + 1 / 2 ^ 52))), ?_, ?_⟩
    · rw [klF64]
      simp only [List.zip_cons_cons, List.zip_nil_left, klLoopF]
      rw [if_pos (by norm_num), if_pos (by norm_num), if_pos (by norm_num), if_pos (by norm_num), r1, r2]
    · have e1 := rnd64_err (1 / 4 * lg (1 + -(1 / 2 ^ 50)))
      have e2 := rnd64_err (3 / 4 * lg (1 + 1 / 2 ^ 52))
      rw [zero_add, rnd64_rounding.idem]
      generalize lg (1 + -(1 / 2 ^ 50)) = a at *
      generalize lg (1 + 1 / 2 ^ 52) = b at *
      generalize rnd64 (1 / 4 * a) = x at *
      generalize rnd64 (3 / 4 * b) = y at *
      rw [abs_neg, abs_of_pos (show (0 : ℚ) < 1 / 2 ^ 50 by norm_num), abs_le] at l1
      rw [abs_of_pos (show (0 : ℚ) < 1 / 2 ^ 52 by norm_num), abs_le] at l2
      rw [abs_of_neg (show 1 / 4 * a < 0 by linarith [l1.2]), abs_le] at e1
      rw [abs_of_pos (show 0 < 3 / 4 * b by linarith [l2.1]), abs_le] at e2
      have : x + y < 0 := by linarith [e1.2, e2.2, l1.2, l2.2]
      have h := rnd64_nonneg (x := -(x + y)) (by linarith)
      rw [rnd64_neg] at h
      linarith

/-- C59 in binary64: neither is `js_div`. Whatever the logarithm and the order of additions, and with a numpy that has `np.float`, two accepted
distributions of sum exactly 1 that differ in the last places have a negative divergence. -/
theorem C59_js_float_refuted : ∃ p q : List ℚ, p.length = q.length ∧ p.sum = 1 ∧ q.sum = 1 ∧ (∀ x ∈ p ++ q, 0 < x ∧ F64 x) ∧
    ∀ npSum, (∀ l, RoundedSum rnd64 l (npSum l)) → ∀ lg, LogOf lg → ∃ v, jsF64 npSum lg true p q = .ok v ∧ v < 0 := by
  have hp : ∀ x ∈ ([1 / 4, 3 / 4] : List ℚ), 0 < x := by simp
  have hq : ∀ x ∈ ([1 / 4 + 1 / 2 ^ 53, 3 / 4 - 1 / 2 ^ 53] : List ℚ), 0 < x := by
    intro x hx
    simp only [List.mem_cons, List.not_mem_nil, or_false] at hx
    rcases hx with rfl | rfl <;> norm_num
  refine ⟨[1 / 4, 3 / 4], [1 / 4 + 1 / 2 ^ 53, 3 / 4 - 1 / 2 ^ 53], rfl, by norm_num, by norm_num, ?_, ?_⟩
  · intro x hx
    simp only [List.cons_append, List.nil_append, List.mem_cons, List.not_mem_nil, or_false] at hx
    rcases hx with rfl | rfl | rfl | rfl
    · exact ⟨by norm_num, 1, -2, by norm_num, by norm_num⟩
    · exact ⟨by norm_num, 3, -2, by norm_num, by norm_num⟩
    · exact ⟨by norm_num, 2 ^ 51 + 1, -53, by norm_num, by norm_num⟩
    · exact ⟨by norm_num, 3 * 2 ^ 51 - 1, -53, by norm_num, by norm_num⟩
  · intro npSum hS lg hlg
    have v1 := (C59_validate_float hS (l := [1 / 4, 3 / 4]) (by simp)).1 (fun x hx => (hp x hx).le) (by norm_num)
    have v2 := (C59_validate_float hS (l := [1 / 4 + 1 / 2 ^ 53, 3 / 4 - 1 / 2 ^ 53]) (by simp)).1 (fun x hx => (hq x hx).le) (by norm_num)
    have m1 : rnd64 (1 / 2 * rnd64 (1 / 4 + (1 / 4 + 1 / 2 ^ 53))) = 1 / 4 + 1 / 2 ^ 54 := by decide +kernel
    have m2 : rnd64 (1 / 2 * rnd64 (3 / 4 + (3 / 4 - 1 / 2 ^ 53))) = 3 / 4 := by decide +kernel
    have r1 : rnd64 (1 / 4 / (1 / 4 + 1 / 2 ^ 54)) = 1 + -(1 / 2 ^ 52) := by decide +kernel
    have r2 : rnd64 (3 / 4 / (3 / 4)) = 1 := by decide +kernel
    have r3 : rnd64 ((1 / 4 + 1 / 2 ^ 53) / (1 / 4 + 1 / 2 ^ 54)) = 1 + 1 / 2 ^ 52 := by decide +kernel
    have r4 : rnd64 ((3 / 4 - 1 / 2 ^ 53) / (3 / 4)) = 1 + -(1 / 2 ^ 53) := by decide +kernel
    have l0 : lg 1 = 0 := by
      have := hlg 1 one_pos ⟨1, 0, by norm_num, by norm_num⟩
      simp only [Rat.cast_one, Real.log_one, sub_zero, abs_zero, zero_div] at this
      have := abs_nonpos_iff.1 this
      exact_mod_cast this
    have l1 := logOf_near_one hlg (t := -(1 / 2 ^ 52)) (by norm_num) ⟨2 ^ 52 - 1, -52, by norm_num, by norm_num⟩
    have l3 := logOf_near_one hlg (t := 1 / 2 ^ 52) (by norm_num) ⟨2 ^ 52 + 1, -52, by norm_num, by norm_num⟩
    have l4 := logOf_near_one hlg (t := -(1 / 2 ^ 53)) (by norm_num) ⟨2 ^ 53 - 1, -53, by norm_num, by norm_num⟩
    have k1 : klF64 lg [1 / 4, 3 / 4] [1 / 4 + 1 / 2 ^ 54, 3 / 4] = .ok (rnd64 (1 / 4 * lg (1 + -(1 / 2 ^ 52)))) := by
      rw [klF64]
      simp only [List.zip_cons_cons, List.zip_nil_left, klLoopF]
      rw [if_pos (by norm_num), if_pos (by norm_num), if_pos (by norm_num), if_pos (by norm_num), r1, r2, l0, mul_zero, rnd64_zero, add_zero, zero_add,
        rnd64_rounding.idem, rnd64_rounding.idem]
    have k2 : klF64 lg [1 / 4 + 1 / 2 ^ 53, 3 / 4 - 1 / 2 ^ 53] [1 / 4 + 1 / 2 ^ 54, 3 / 4] =
        .ok (rnd64 (rnd64 ((1 / 4 + 1 / 2 ^ 53) * lg (1 + 1 / 2 ^ 52)) + rnd64 ((3 / 4 - 1 / 2 ^ 53) * lg (1 + -(1 / 2 ^ 53))))) := by
      rw [klF64]
      simp only [List.zip_cons_cons, List.zip_nil_left, klLoopF]
      rw [if_pos (by norm_num), if_pos (by norm_num), if_pos (by norm_num), if_pos (by norm_num), r3, r4, zero_add, rnd64_rounding.idem]
    refine ⟨rnd64 (1 / 2 * rnd64 (rnd64 (1 / 4 * lg (1 + -(1 / 2 ^ 52))) + rnd64 (rnd64 ((1 / 4 + 1 / 2 ^ 53) * lg (1 + 1 / 2 ^ 52)) +
      rnd64 ((3 / 4 - 1 / 2 ^ 53) * lg (1 + -(1 / 2 ^ 53)))))), ?_, ?_⟩
    · simp only [jsF64, v1, v2, List.zip_cons_cons, List.zip_nil_left, List.map_cons, List.map_nil, m1, m2]
      rw [if_pos (by simp), k1, k2]
    · rw [rnd64_half]
      have e1 := rnd64_err (1 / 4 * lg (1 + -(1 / 2 ^ 52)))
      have e3 := rnd64_err ((1 / 4 + 1 / 2 ^ 53) * lg (1 + 1 / 2 ^ 52))
      have e4 := rnd64_err ((3 / 4 - 1 / 2 ^ 53) * lg (1 + -(1 / 2 ^ 53)))
      generalize lg (1 + -(1 / 2 ^ 52)) = a at *
      generalize lg (1 + 1 / 2 ^ 52) = b at *
      generalize lg (1 + -(1 / 2 ^ 53)) = c at *
      generalize rnd64 (1 / 4 * a) = x at *
      generalize rnd64 ((1 / 4 + 1 / 2 ^ 53) * b) = y at *
      generalize rnd64 ((3 / 4 - 1 / 2 ^ 53) * c) = z at *
      rw [abs_neg, abs_of_pos (show (0 : ℚ) < 1 / 2 ^ 52 by norm_num), abs_le] at l1
      rw [abs_of_pos (show (0 : ℚ) < 1 / 2 ^ 52 by norm_num), abs_le] at l3
      rw [abs_neg, abs_of_pos (show (0 : ℚ) < 1 / 2 ^ 53 by norm_num), abs_le] at l4
      rw [abs_of_neg (show 1 / 4 * a < 0 by linarith [l1.2]), abs_le] at e1
      rw [abs_of_pos (show 0 < (1 / 4 + 1 / 2 ^ 53) * b by linarith [l3.1]), abs_le] at e3
      rw [abs_of_neg (show (3 / 4 - 1 / 2 ^ 53) * c < 0 by linarith [l4.2]), abs_le] at e4
      have hw : y + z < 0 := by linarith [e3.2, e4.2, l3.2, l4.2]
      have e5 := rnd64_err (y + z)
      rw [abs_of_neg hw, abs_le] at e5
      generalize rnd64 (y + z) = w at *
      have : x + w < 0 := by linarith [e1.2, e3.2, e4.2, e5.2, l1.2, l3.2, l4.2]
      have h := rnd64_nonneg (x := -(x + w)) (by linarith)
      rw [rnd64_neg] at h
      linarith

/-- the hypotheses of `C59_kl_float` and `C59_js_float` can be met -/
example : ∃ lg npSum, LogOf lg ∧ (∀ l, RoundedSum rnd64 l (npSum l)) ∧
    validateF64 npSum true [1 / 2, 1 / 2, 0] = .ok () ∧ validateF64 npSum true [0, 1 / 4, 3 / 4] = .ok () := by
  obtain ⟨lg, h⟩ := logOf_exists
  exact ⟨lg, sumFromRight, h, sumFromRight_rounded, by decide +kernel, by decide +kernel⟩
example : (∀ x ∈ ([1 / 2, 1 / 2, 0] : List ℚ), 0 ≤ x) ∧
    (∀ x ∈ ([1 / 2, 1 / 2, 0] : List ℚ).zip ([1 / 4, 1 / 2, 1 / 4] : List ℚ), 0 < x.1 → 0 < x.2) ∧
    (([1 / 2, 1 / 2, 0] : List ℚ).zip ([1 / 4, 1 / 2, 1 / 4] : List ℚ)).length ≤ 2 ^ 26 := by decide +kernel
example : validateF64 sumFromRight true [1 / 2, 1 / 4] = .error .assertion ∧ validateF64 sumFromRight true [3 / 2, -1 / 2] = .error .assertion := by
  decide +kernel

end Verif
