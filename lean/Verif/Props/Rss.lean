import Verif.Model.Rss
import Verif.Lemmas.Nearest
import Verif.Lemmas.File
import Mathlib.Data.Nat.Cast.Order.Field
/-! # Property C110: the memory that is reported -/

namespace Verif
open Spec

/-- a value near `p / q` and not below its integer part has the same integer part -/
theorem floor_near {p q : Nat} (hq : 0 < q) {y : ℚ} (h1 : ((p / q : Nat) : ℚ) ≤ y) (h2 : y - p / q < 1 / q) : ⌊y⌋ = ((p / q : Nat) : Int) := by
  rw [Int.floor_eq_iff]
  refine ⟨by exact_mod_cast h1, ?_⟩
  have hq' : (0 : ℚ) < q := by exact_mod_cast hq
  have h3 : p + 1 ≤ (p / q + 1) * q := by
    have := Nat.lt_div_mul_add (a := p) hq
    have e : (p / q + 1) * q = p / q * q + q := by ring
    omega
  have h4 : (p : ℚ) + 1 ≤ ((p / q : Nat) + 1) * q := by exact_mod_cast h3
  have h5 : (p : ℚ) / q + 1 / q ≤ (p / q : Nat) + 1 := by
    rw [← add_div, div_le_iff₀ hq']; exact h4
  rw [Int.cast_natCast]
  linarith

theorem floor_rnd64 {p q : Nat} (hq : 0 < q) (hp : p < 2 ^ 53) : ⌊rnd64 ((p : ℚ) / q)⌋ = ((p / q : Nat) : Int) := by
  have hq' : (0 : ℚ) < q := by exact_mod_cast hq
  apply floor_near hq
  · rw [← rnd64_rounding.nat (p / q) (le_trans (Nat.div_le_self p q) (le_of_lt hp))]
    apply rnd64_rounding.mono
    exact Nat.cast_div_le
  · have h := rnd64_err ((p : ℚ) / q)
    rw [abs_of_nonneg (a := (p : ℚ) / q) (by positivity)] at h
    have h1 := (abs_le.1 h).2
    have hp' : (p : ℚ) < 2 ^ 53 := by exact_mod_cast hp
    have h2 : (p : ℚ) / q / 2 ^ 53 < 1 / q := by
      rw [div_div, div_lt_div_iff₀ (by positivity) hq']
      nlinarith
    linarith

/-- two divisions by 1000 one after the other, both rounded -/
theorem floor_rnd64_twice {p : Nat} (hp : p < 2 ^ 51) : ⌊rnd64 (rnd64 ((p : ℚ) / 10 ^ 3) / 10 ^ 3)⌋ = ((p / 1000000 : Nat) : Int) := by
  have hpos : (0 : ℚ) ≤ (p : ℚ) / 10 ^ 3 := by positivity
  have hp' : (p : ℚ) < 2 ^ 51 := by exact_mod_cast hp
  have h := abs_le.1 (rnd64_err ((p : ℚ) / 10 ^ 3))
  rw [abs_of_nonneg hpos] at h
  generalize hy : rnd64 ((p : ℚ) / 10 ^ 3) = y at h
  have hy0 : 0 ≤ y := by
    have : (p : ℚ) / 10 ^ 3 / 2 ^ 53 ≤ (p : ℚ) / 10 ^ 3 := div_le_self hpos (by norm_num)
    linarith [h.1]
  have h' := abs_le.1 (rnd64_err (y / 10 ^ 3))
  rw [abs_of_nonneg (by positivity)] at h'
  have e6 : ((1000000 : Nat) : ℚ) = 10 ^ 6 := by norm_num
  apply floor_near (by norm_num)
  · have hk1 : p / 1000000 * 1000000 ≤ p := Nat.div_mul_le_self p 1000000
    generalize p / 1000000 = k at hk1
    norm_num at hp
    have hk : k ≤ 2 ^ 53 := by norm_num; omega
    have hk2 : k * 1000 ≤ 2 ^ 53 := le_trans (Nat.mul_le_mul_left k (by norm_num)) (le_trans hk1 (le_trans (le_of_lt hp) (by norm_num)))
    have hk' := rnd64_rounding.nat _ hk
    have hk2' := rnd64_rounding.nat _ hk2
    have h5 : (k : ℚ) * 1000000 ≤ p := by exact_mod_cast hk1
    push_cast at hk2'
    have h3 : (k : ℚ) * 1000 ≤ y := by
      have : rnd64 ((k : ℚ) * 1000) ≤ rnd64 ((p : ℚ) / 10 ^ 3) := by
        apply rnd64_rounding.mono
        have : (p : ℚ) / 10 ^ 3 = p / 1000 := by norm_num
        linarith
      linarith
    have h6 : rnd64 (k : ℚ) ≤ rnd64 (y / 10 ^ 3) := by
      apply rnd64_rounding.mono
      have : y / 10 ^ 3 = y / 1000 := by norm_num
      linarith
    linarith
  · rw [e6]
    have a1 := h.2
    have a2 := h'.2
    have b1 : y ≤ (p : ℚ) / 10 ^ 3 * (1 + 1 / 2 ^ 53) := by
      have : (p : ℚ) / 10 ^ 3 * (1 + 1 / 2 ^ 53) = (p : ℚ) / 10 ^ 3 + (p : ℚ) / 10 ^ 3 / 2 ^ 53 := by ring
      linarith
    have b2 : rnd64 (y / 10 ^ 3) ≤ y / 10 ^ 3 * (1 + 1 / 2 ^ 53) := by
      have : y / 10 ^ 3 * (1 + 1 / 2 ^ 53) = y / 10 ^ 3 + y / 10 ^ 3 / 2 ^ 53 := by ring
      linarith
    have b3 : rnd64 (y / 10 ^ 3) ≤ (p : ℚ) / 10 ^ 6 * (1 + 1 / 2 ^ 53) * (1 + 1 / 2 ^ 53) := by
      refine le_trans b2 ?_
      have : (p : ℚ) / 10 ^ 6 * (1 + 1 / 2 ^ 53) * (1 + 1 / 2 ^ 53) = ((p : ℚ) / 10 ^ 3 * (1 + 1 / 2 ^ 53)) / 10 ^ 3 * (1 + 1 / 2 ^ 53) := by ring
      rw [this]
      apply mul_le_mul_of_nonneg_right _ (by positivity)
      exact div_le_div_of_nonneg_right b1 (by norm_num)
    have b4 : (p : ℚ) / 10 ^ 6 * (1 + 1 / 2 ^ 53) * (1 + 1 / 2 ^ 53) - p / 10 ^ 6 = p / 10 ^ 6 * (2 / 2 ^ 53 + 1 / 2 ^ 106) := by ring
    have b5 : (p : ℚ) / 10 ^ 6 * (2 / 2 ^ 53 + 1 / 2 ^ 106) < 1 / 10 ^ 6 := by
      have : (p : ℚ) * (2 / 2 ^ 53 + 1 / 2 ^ 106) < 1 := by
        have c : (2 / 2 ^ 53 + 1 / 2 ^ 106 : ℚ) ≤ 1 / 2 ^ 51 := by norm_num
        have : (p : ℚ) * (2 / 2 ^ 53 + 1 / 2 ^ 106) ≤ p * (1 / 2 ^ 51) := mul_le_mul_of_nonneg_left c (by positivity)
        have : (p : ℚ) * (1 / 2 ^ 51) < 1 := by rw [mul_one_div, div_lt_one (by norm_num)]; exact hp'
        linarith
      rw [div_mul_eq_mul_div]
      exact div_lt_div_of_pos_right this (by norm_num)
    linarith

/-- C110: on Linux, where memory is measured in kilobytes, the text is the number of kilobytes if that is less than 1000 and the number of whole
megabytes otherwise; the rounding of the division does not show. -/
theorem C110_linux {mem : Nat} (h : mem < 2 ^ 53) :
    (mem < 1000 → maxRSS false mem = (mem, natStr mem ++ lit "KB")) ∧ (1000 ≤ mem → maxRSS false mem = (mem, natStr (mem / 1000) ++ lit "MB")) := by
  constructor
  · intro h1
    have : ¬ (10 : ℚ) ^ 3 ≤ mem := by
      rw [not_le]; have : (mem : ℚ) < 1000 := by exact_mod_cast h1
      linarith
    simp only [maxRSS, Bool.false_eq_true, if_false, this]
    rw [show ⌊(mem : ℚ)⌋ = (mem : Int) from Int.floor_natCast mem, intStr_nat]
  · intro h1
    have : (10 : ℚ) ^ 3 ≤ mem := by have : (1000 : ℚ) ≤ mem := by exact_mod_cast h1
                                    linarith
    simp only [maxRSS, Bool.false_eq_true, if_false, this, if_true]
    have := floor_rnd64 (p := mem) (q := 1000) (by norm_num) h
    rw [show (10 : ℚ) ^ 3 = ((1000 : Nat) : ℚ) by norm_num, this, intStr_nat]

/-- C110: on macOS, where memory is measured in bytes, the text is the number of whole kilobytes if that is less than 1000 and the number of whole
megabytes otherwise, although the value is divided and rounded twice. -/
theorem C110_darwin {mem : Nat} (h : mem < 2 ^ 51) :
    (mem < 1000000 → maxRSS true mem = (mem, natStr (mem / 1000) ++ lit "KB")) ∧
    (1000000 ≤ mem → maxRSS true mem = (mem, natStr (mem / 1000000) ++ lit "MB")) := by
  have hf := floor_rnd64 (p := mem) (q := 1000) (by norm_num) (by omega)
  have e3 : (10 : ℚ) ^ 3 = ((1000 : Nat) : ℚ) := by norm_num
  have hfl : ⌊rnd64 ((mem : ℚ) / 10 ^ 3)⌋ = ((mem / 1000 : Nat) : Int) := by rw [e3]; exact hf
  have hiff : (10 : ℚ) ^ 3 ≤ rnd64 ((mem : ℚ) / 10 ^ 3) ↔ 1000 ≤ mem / 1000 := by
    rw [show ((10 : ℚ) ^ 3 ≤ rnd64 ((mem : ℚ) / 10 ^ 3)) ↔ ((1000 : Int) ≤ ⌊rnd64 ((mem : ℚ) / 10 ^ 3)⌋) by rw [Int.le_floor]; norm_num, hfl]
    exact_mod_cast Iff.rfl
  constructor
  · intro h1
    have : ¬ (10 : ℚ) ^ 3 ≤ rnd64 ((mem : ℚ) / 10 ^ 3) := by rw [hiff]; omega
    simp only [maxRSS, if_true, if_neg this, hfl, intStr_nat]
  · intro h1
    have : (10 : ℚ) ^ 3 ≤ rnd64 ((mem : ℚ) / 10 ^ 3) := by rw [hiff]; omega
    have h2 := floor_rnd64_twice h
    simp only [maxRSS, if_true, if_pos this, h2, intStr_nat]

example : maxRSS false 999 = (999, lit "999KB") ∧ maxRSS false 81999 = (81999, lit "81MB") ∧ maxRSS true 999999 = (999999, lit "999KB") ∧
    maxRSS true 83999999 = (83999999, lit "83MB") := by decide +kernel

end Verif
