import Verif.Model.Np
import Mathlib.Tactic.Linarith
/-! # Lemmas about numpy types -/

namespace Verif
namespace NpTy

theorem lo_le_hi (t : NpTy) : t.lo ≤ t.hi := by cases t <;> decide

theorem hi_eq {t : NpTy} (h : t ≠ f64) : t.hi = t.lo + 2 ^ t.bits - 1 := by cases t <;> first | decide | exact absurd rfl h

/-- a value in range is stored exactly -/
theorem cast_of_range {t : NpTy} (h : t ≠ f64) {v : Int} (h1 : t.lo ≤ v) (h2 : v ≤ t.hi) : t.cast v = v := by
  have hh := hi_eq h
  simp only [cast, if_neg h]
  rw [Int.emod_eq_of_lt (by omega) (by omega)]
  omega

/-- the promoted type holds both ranges, unless it is `float64` -/
theorem promote_range (a b : NpTy) (h : a.promote b ≠ f64) :
    a ≠ f64 ∧ b ≠ f64 ∧ (a.promote b).lo ≤ a.lo ∧ (a.promote b).lo ≤ b.lo ∧ a.hi ≤ (a.promote b).hi ∧ b.hi ≤ (a.promote b).hi := by
  revert h
  cases a <;> cases b <;> decide

end NpTy

theorem roundNat_small {n : Nat} (h : n ≤ 2 ^ 53) : roundNat n = n := by
  by_cases h1 : n < 2 ^ 53
  · rw [roundNat, if_pos h1]
  · have : n = 2 ^ 53 := by omega
    subst this
    decide

/-- integers up to 2^53 are exact in `float64` -/
theorem roundF64_small {v : Int} (h : v.natAbs ≤ 2 ^ 53) : roundF64 v = v := by
  simp only [roundF64, roundNat_small h]
  split <;> omega

theorem bestDtype_ok {mn mx : Int} {t : NpTy} (h : bestDtype mn mx = .ok t) : t ≠ .f64 ∧ t.lo ≤ mn ∧ mx ≤ t.hi := by
  simp only [bestDtype] at h
  cases hf : dtypeOptions.find? fun t => decide (t.lo ≤ mn) && decide (mx ≤ t.hi) with
  | none => simp [hf] at h
  | some u =>
    simp only [hf, Except.ok.injEq] at h
    subst h
    have h1 := List.find?_some hf
    have h2 := List.mem_of_find?_eq_some hf
    simp only [Bool.and_eq_true, decide_eq_true_eq] at h1
    refine ⟨?_, h1⟩
    intro e
    subst e
    revert h2
    decide

theorem bestDtype_signed {mn mx : Int} (h1 : -2 ^ 63 ≤ mn) (h2 : mx < 2 ^ 63) : ∃ t, bestDtype mn mx = .ok t := by
  simp only [bestDtype]
  cases hf : dtypeOptions.find? fun t => decide (t.lo ≤ mn) && decide (mx ≤ t.hi) with
  | some u => exact ⟨u, rfl⟩
  | none =>
    rw [List.find?_eq_none] at hf
    have := hf .i64 (by decide)
    refine absurd ?_ this
    simp only [Bool.and_eq_true, decide_eq_true_eq]
    simp only [NpTy.lo, NpTy.hi]
    omega

theorem bestDtype_unsigned {mx : Int} (h2 : mx < 2 ^ 64) : ∃ t, bestDtype 0 mx = .ok t ∧ t.lo = 0 := by
  simp only [bestDtype]
  by_cases c1 : mx ≤ 255
  · exact ⟨.u8, by simp [dtypeOptions, List.find?, NpTy.lo, NpTy.hi, c1], rfl⟩
  by_cases c2 : mx ≤ 65535
  · have : ¬ mx ≤ 127 := by omega
    exact ⟨.u16, by simp [dtypeOptions, List.find?, NpTy.lo, NpTy.hi, c1, c2, this], rfl⟩
  by_cases c3 : mx ≤ 4294967295
  · have g1 : ¬ mx ≤ 127 := by omega
    have g2 : ¬ mx ≤ 32767 := by omega
    exact ⟨.u32, by simp [dtypeOptions, List.find?, NpTy.lo, NpTy.hi, c1, c2, c3, g1, g2], rfl⟩
  · have g1 : ¬ mx ≤ 127 := by omega
    have g2 : ¬ mx ≤ 32767 := by omega
    have g3 : ¬ mx ≤ 2147483647 := by omega
    have c4 : mx ≤ 18446744073709551615 := by omega
    exact ⟨.u64, by simp [dtypeOptions, List.find?, NpTy.lo, NpTy.hi, c1, c2, c3, c4, g1, g2, g3], rfl⟩

end Verif
