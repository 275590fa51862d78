import Verif.Props.Eval
import Verif.Lemmas.Nearest

namespace Verif
open Spec

theorem rnd64_rel {x : ℚ} (hx : 0 ≤ x) : x * (1 - 1 / 2 ^ 53) ≤ rnd64 x ∧ rnd64 x ≤ x * (1 + 1 / 2 ^ 53) := by
  have h := rnd64_err x
  rw [abs_of_nonneg hx, abs_le] at h
  constructor <;> linarith [h.1, h.2]

/-- C58 (partial: binary64 without overflow and underflow): the F1 that the code computes is the harmonic mean of its arguments up to
a relative error of 2^-51; so it lies between them up to that error, and it is 0 only if one of them is. -/
theorem C58_f1_float_partial {p r : ℚ} (hp : 0 ≤ p ∧ p ≤ 1) (hr : 0 ≤ r ∧ r ≤ 1) (hfp : F64 p) :
    ∃ f, f1Measure rnd64 p r = .ok f ∧ (p + r) * f ≤ 2 * p * r * (1 + 1 / 2 ^ 51) ∧ 2 * p * r * (1 - 1 / 2 ^ 51) ≤ (p + r) * f ∧
      min p r * (1 - 1 / 2 ^ 51) ≤ f ∧ f ≤ max p r * (1 + 1 / 2 ^ 51) ∧ (f = 0 ↔ p = 0 ∨ r = 0) := by
  have hp' : rnd64 p = p := by
    have h := (rnd64_nearest p).near p hfp
    rw [sub_self, abs_zero] at h
    have := abs_nonpos_iff.1 h
    linarith
  unfold f1Measure
  rw [if_pos hp, if_pos hr]
  simp only
  rw [rnd64_rounding.dbl, hp']
  obtain ⟨d1, d2⟩ := rnd64_rel (x := p + r) (by linarith [hp.1, hr.1])
  split
  · rename_i h0
    rw [h0] at d1
    have hs : p + r ≤ 0 := by nlinarith
    have hp0 : p = 0 := by linarith [hp.1, hr.1]
    have hr0 : r = 0 := by linarith [hp.1, hr.1]
    subst hp0 hr0
    exact ⟨0, rfl, by simp, by simp, by simp, by simp, by simp⟩
  · rename_i h0
    have hs : 0 < p + r := by
      rcases lt_or_eq_of_le (show 0 ≤ p + r by linarith [hp.1, hr.1]) with h | h
      · exact h
      · rw [← h] at h0
        exact absurd (by simpa using rnd64_zero) h0
    have hD : 0 < rnd64 (p + r) := by nlinarith
    have hN0 : 0 ≤ 2 * p * r := mul_nonneg (by linarith [hp.1]) hr.1
    obtain ⟨n1, n2⟩ := rnd64_rel (x := 2 * p * r) hN0
    set N := rnd64 (2 * p * r) with hN
    set D := rnd64 (p + r) with hDD
    have hNn : 0 ≤ N := by nlinarith
    obtain ⟨q1, q2⟩ := rnd64_rel (x := N / D) (div_nonneg hNn hD.le)
    set f := rnd64 (N / D) with hf
    have hq : N / D * D = N := by field_simp
    have hqn : 0 ≤ N / D := div_nonneg hNn hD.le
    have hfn : 0 ≤ f := by nlinarith
    set q := N / D
    -- (p + r) * q is 2pr up to two roundings
    have u1 : (p + r) * q * (1 - 1 / 2 ^ 53) ≤ N := by rw [← hq]; nlinarith
    have u2 : N ≤ (p + r) * q * (1 + 1 / 2 ^ 53) := by rw [← hq]; nlinarith
    have hz : 0 ≤ (p + r) * q := mul_nonneg hs.le hqn
    have v1 : (p + r) * f ≤ (p + r) * q * (1 + 1 / 2 ^ 53) := by
      have := mul_le_mul_of_nonneg_left q2 hs.le
      linarith
    have v2 : (p + r) * q * (1 - 1 / 2 ^ 53) ≤ (p + r) * f := by
      have := mul_le_mul_of_nonneg_left q1 hs.le
      linarith
    have w1 : (p + r) * f ≤ 2 * p * r * (1 + 1 / 2 ^ 51) := by
      set z := (p + r) * q
      set y := 2 * p * r
      norm_num at *
      linarith
    have w2 : 2 * p * r * (1 - 1 / 2 ^ 51) ≤ (p + r) * f := by
      set z := (p + r) * q
      set y := 2 * p * r
      norm_num at *
      linarith
    refine ⟨f, rfl, w1, w2, ?_, ?_, ?_⟩
    · have hm : (p + r) * min p r ≤ 2 * p * r := by
        rcases le_total p r with h | h
        · rw [min_eq_left h]; nlinarith [hp.1, hr.1]
        · rw [min_eq_right h]; nlinarith [hp.1, hr.1]
      have : (p + r) * (min p r * (1 - 1 / 2 ^ 51)) ≤ (p + r) * f := by
        refine le_trans ?_ w2
        rw [← mul_assoc]
        exact mul_le_mul_of_nonneg_right hm (by norm_num)
      exact le_of_mul_le_mul_left this hs
    · have hm : 2 * p * r ≤ (p + r) * max p r := by
        rcases le_total p r with h | h
        · rw [max_eq_right h]; nlinarith [hp.1, hr.1]
        · rw [max_eq_left h]; nlinarith [hp.1, hr.1]
      have : (p + r) * f ≤ (p + r) * (max p r * (1 + 1 / 2 ^ 51)) := by
        refine le_trans w1 ?_
        rw [← mul_assoc]
        exact mul_le_mul_of_nonneg_right hm (by norm_num)
      exact le_of_mul_le_mul_left this hs
    · constructor
      · intro h
        rw [h, mul_zero] at w2
        have h2 : p * r = 0 := by nlinarith
        exact mul_eq_zero.1 h2
      · intro h
        have hy : 2 * p * r = 0 := by rcases h with h | h <;> rw [h] <;> ring
        rw [hy, zero_mul] at w1
        have : (p + r) * f = 0 := le_antisymm w1 (mul_nonneg hs.le hfn)
        rcases mul_eq_zero.1 this with h | h
        · exact absurd h hs.ne'
        · exact h

/-- 3/4 and 1/3 (not a binary64 number, which is allowed for the second argument) -/
example : F64 (3 / 4) ∧ (match f1Measure rnd64 (3 / 4) (1 / 3) with
    | .ok f => decide (f ≠ 6 / 13 ∧ |f - 6 / 13| < 1 / 2 ^ 53) | .error _ => false) = true :=
  ⟨⟨3, -2, by norm_num, by norm_num⟩, by decide +kernel⟩

end Verif
