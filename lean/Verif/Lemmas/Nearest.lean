import Verif.Lemmas.Rounding
import Verif.Lemmas.Np
/-!
# Binary64 rounding gives the nearest number, ties to even
-/

namespace Verif
open Spec

theorem rhe_near (t : ℚ) (k : ℤ) : |t - rhe t| ≤ |t - k| := by
  have h1 := Int.floor_le t
  have h2 := Int.lt_floor_add_one t
  have hk : (k : ℚ) ≤ ⌊t⌋ ∨ (⌊t⌋ : ℚ) + 1 ≤ k := by
    rcases lt_or_ge ⌊t⌋ k with h | h
    · right; exact_mod_cast h
    · left; exact_mod_cast h
  unfold rhe
  split
  · rw [abs_of_nonneg (by linarith)]
    rcases hk with hk | hk
    · rw [abs_of_nonneg (by linarith)]; linarith
    · rw [abs_of_nonpos (by linarith)]; linarith
  · have hup : |t - ((⌊t⌋ + 1 : ℤ) : ℚ)| ≤ |t - k| := by
      push_cast
      rw [abs_of_nonpos (by linarith)]
      rcases hk with hk | hk
      · rw [abs_of_nonneg (by linarith)]; linarith
      · rw [abs_of_nonpos (by linarith)]; linarith
    split
    · exact hup
    · split
      · rw [abs_of_nonneg (by linarith)]
        rcases hk with hk | hk
        · rw [abs_of_nonneg (by linarith)]; linarith
        · rw [abs_of_nonpos (by linarith)]; linarith
      · exact hup

theorem rhe_err (t : ℚ) : |t - rhe t| ≤ 1 / 2 := by
  have h1 := Int.floor_le t
  have h2 := Int.lt_floor_add_one t
  by_cases h : t - ⌊t⌋ ≤ 1 / 2
  · refine le_trans (rhe_near t ⌊t⌋) ?_
    rw [abs_of_nonneg (by linarith)]; exact h
  · refine le_trans (rhe_near t (⌊t⌋ + 1)) ?_
    push_cast
    rw [abs_of_nonpos (by linarith)]; linarith

theorem rhe_tie {t : ℚ} {k : ℤ} (hk : k ≠ rhe t) (h : |t - k| = |t - rhe t|) : rhe t % 2 = 0 := by
  have h1 := Int.floor_le t
  have h2 := Int.lt_floor_add_one t
  have hk' : k = rhe t ∨ (k : ℚ) ≤ rhe t - 1 ∨ (rhe t : ℚ) + 1 ≤ k := by
    rcases lt_trichotomy k (rhe t) with h | h | h
    · right; left; have : k ≤ rhe t - 1 := by omega
      exact_mod_cast this
    · left; exact h
    · right; right; exact_mod_cast h
  rcases hk' with hk' | hk'
  · exact absurd hk' hk
  clear hk
  revert h hk'
  unfold rhe
  split
  · rename_i g
    intro h hk'
    exfalso
    rw [abs_of_nonneg (by linarith : (0 : ℚ) ≤ t - ⌊t⌋)] at h
    rcases hk' with hk | hk
    · rw [abs_of_nonneg (by linarith)] at h; linarith
    · rw [abs_of_nonpos (by linarith)] at h; linarith
  · rename_i g
    split
    · rename_i g2
      intro h hk'
      exfalso
      push_cast at h hk'
      rw [abs_of_nonpos (by linarith : t - (⌊t⌋ + 1 : ℚ) ≤ 0)] at h
      rcases hk' with hk | hk
      · rw [abs_of_nonneg (by linarith)] at h; linarith
      · rw [abs_of_nonpos (by linarith)] at h; linarith
    · split
      · intros; assumption
      · intros; omega

/-- nearest, for positive numbers -/
theorem rnd64_nearest_pos {x : ℚ} (hx : 0 < x) : Nearest64 x (rnd64 x) := by
  obtain ⟨e, h1, h2, h3⟩ := rnd64_pos hx
  obtain ⟨b1, b2⟩ := rhe_bounds h1 h2
  have hp : (0 : ℚ) < 2 ^ e := by positivity
  have hxe : x = x / 2 ^ e * 2 ^ e := by field_simp
  have hdist : ∀ k : ℤ, |x - k * 2 ^ e| = |x / 2 ^ e - k| * 2 ^ e := by
    intro k
    have : x - k * 2 ^ e = (x / 2 ^ e - k) * 2 ^ e := by rw [sub_mul]; rw [← hxe]
    rw [this, abs_mul, abs_of_pos hp]
  have hcan : ∃ m e' : ℤ, 2 ^ 52 ≤ |m| ∧ |m| < 2 ^ 53 ∧ (rhe (x / 2 ^ e) % 2 = 0 → m % 2 = 0) ∧ rnd64 x = m * 2 ^ e' := by
    rcases lt_or_eq_of_le b2 with hlt | heq
    · exact ⟨rhe (x / 2 ^ e), e, by rw [abs_of_nonneg (by omega)]; exact b1, by rw [abs_of_nonneg (by omega)]; exact hlt, id, h3⟩
    · refine ⟨2 ^ 52, e + 1, by decide, by decide, fun _ => by decide, ?_⟩
      rw [h3, heq, zpow_add_one₀ (by norm_num)]
      push_cast; ring
  -- candidates on the same grid, or farther away than the grid point `2^52`
  have hz : ∀ z, F64 z → (∃ k : ℤ, z = k * 2 ^ e) ∨ |x - rnd64 x| < |x - z| := by
    rintro z ⟨m, e', hm, rfl⟩
    by_cases he : e ≤ e'
    · left
      obtain ⟨k, hk⟩ := Int.eq_ofNat_of_zero_le (show 0 ≤ e' - e by omega)
      refine ⟨m * 2 ^ k, ?_⟩
      rw [show e' = e + k by omega, zpow_add₀ (by norm_num)]
      push_cast
      rw [zpow_natCast]
      ring
    · right
      have hmq : |(m : ℚ)| < 2 ^ 53 := by exact_mod_cast hm
      have hpow : (2 : ℚ) ^ e' * 2 ≤ 2 ^ e := by
        rw [← zpow_add_one₀ (by norm_num)]
        exact zpow_le_zpow_right₀ (by norm_num) (by omega)
      have hp' : (0 : ℚ) < 2 ^ e' := by positivity
      have hlt : (m : ℚ) * 2 ^ e' < 2 ^ 52 * 2 ^ e := by
        have : (m : ℚ) < 2 ^ 53 := lt_of_le_of_lt (le_abs_self _) hmq
        nlinarith
      have hnear := rhe_near (x / 2 ^ e) (2 ^ 52)
      have h4 : |x - rnd64 x| ≤ |x - ((2 ^ 52 : ℤ) : ℚ) * 2 ^ e| := by
        rw [h3, hdist, hdist]
        exact mul_le_mul_of_nonneg_right hnear hp.le
      refine lt_of_le_of_lt h4 ?_
      push_cast
      rw [abs_of_nonneg (by linarith), abs_of_nonneg (by linarith)]
      linarith
  refine ⟨?_, ?_, ?_⟩
  · obtain ⟨m, e', _, c2, _, c4⟩ := hcan
    exact ⟨m, e', c2, c4⟩
  · intro z hf
    rcases hz z hf with ⟨k, rfl⟩ | h
    · rw [h3, hdist, hdist]
      exact mul_le_mul_of_nonneg_right (rhe_near _ _) hp.le
    · exact h.le
  · intro z hf hne htie
    rcases hz z hf with ⟨k, rfl⟩ | h
    · have hk : k ≠ rhe (x / 2 ^ e) := by
        rintro rfl; exact hne h3.symm
      rw [h3, hdist, hdist] at htie
      have := rhe_tie hk (mul_right_cancel₀ hp.ne' htie)
      obtain ⟨m, e', c1, c2, c3, c4⟩ := hcan
      exact ⟨m, e', c1, c2, c3 this, c4⟩
    · linarith

theorem F64.neg {x : ℚ} (h : F64 x) : F64 (-x) := by
  obtain ⟨m, e, hm, rfl⟩ := h
  exact ⟨-m, e, by rwa [abs_neg], by push_cast; ring⟩

/-- `rnd64` rounds to nearest, ties to even -/
theorem rnd64_nearest (x : ℚ) : Nearest64 x (rnd64 x) := by
  rcases lt_trichotomy x 0 with h | h | h
  · obtain ⟨n1, n2, n3⟩ := rnd64_nearest_pos (x := -x) (by linarith)
    rw [rnd64_neg] at n1 n2 n3
    have hd : ∀ z : ℚ, |-x - z| = |x - -z| := by
      intro z; rw [← abs_neg]; congr 1; ring
    refine ⟨by simpa using F64.neg n1, ?_, ?_⟩
    · intro z hz
      have := n2 (-z) (F64.neg hz)
      rw [hd, hd, neg_neg, neg_neg] at this; exact this
    · intro z hz hne htie
      obtain ⟨m, e, c1, c2, c3, c4⟩ := n3 (-z) (F64.neg hz) (by simpa using hne) (by rw [hd, hd, neg_neg, neg_neg]; exact htie)
      refine ⟨-m, e, by rwa [abs_neg], by rwa [abs_neg], by omega, ?_⟩
      push_cast
      linarith
  · subst h
    rw [rnd64_zero]
    have h0 : F64 0 := ⟨0, 0, by norm_num, by norm_num⟩
    refine ⟨h0, by simp, ?_⟩
    intro z _ hne h
    simp at h
    exact absurd h hne
  · exact rnd64_nearest_pos h

/-- relative error of rounding -/
theorem rnd64_err (x : ℚ) : |rnd64 x - x| ≤ |x| / 2 ^ 53 := by
  have key : ∀ x : ℚ, 0 < x → |rnd64 x - x| ≤ |x| / 2 ^ 53 := by
    intro x hx
    obtain ⟨e, h1, h2, h3⟩ := rnd64_pos hx
    have hp : (0 : ℚ) < 2 ^ e := by positivity
    have hxe : x = x / 2 ^ e * 2 ^ e := by field_simp
    have : rnd64 x - x = -((x / 2 ^ e - rhe (x / 2 ^ e)) * 2 ^ e) := by
      rw [h3, sub_mul, ← hxe]; ring
    rw [this, abs_neg, abs_mul, abs_of_pos hp, abs_of_pos hx]
    have := rhe_err (x / 2 ^ e)
    have h4 : |x / 2 ^ e - rhe (x / 2 ^ e)| * 2 ^ e ≤ 1 / 2 * 2 ^ e := mul_le_mul_of_nonneg_right this hp.le
    refine le_trans h4 ?_
    rw [le_div_iff₀ (by positivity)]
    linarith
  rcases lt_trichotomy x 0 with h | h | h
  · have := key (-x) (by linarith)
    rw [rnd64_neg, abs_neg] at this
    rw [← abs_neg]
    convert this using 2
    ring
  · subst h; simp [rnd64_zero]
  · exact key x h

theorem roundNat_eq (n : ℕ) : (roundNat n : ℚ) = rnd64 n := by
  by_cases hn : n < 2 ^ 53
  · rw [roundNat, if_pos hn]
    have := rnd64_exact hn.le 0
    simpa using this.symm
  · have hn0 : n ≠ 0 := by omega
    have hlog : 53 ≤ n.log2 := (Nat.le_log2 hn0).2 (by omega)
    obtain ⟨k, hk⟩ : ∃ k, n.log2 = 52 + k := ⟨n.log2 - 52, by omega⟩
    have hl1 : 2 ^ n.log2 ≤ n := Nat.log2_self_le hn0
    have hl2 : n < 2 ^ (n.log2 + 1) := Nat.lt_log2_self
    have g1 : (2 : ℚ) ^ 52 * 2 ^ (k : ℤ) ≤ n := by
      rw [zpow_natCast, ← pow_add, ← hk]; exact_mod_cast hl1
    have g2 : (n : ℚ) < 2 ^ 53 * 2 ^ (k : ℤ) := by
      rw [zpow_natCast, ← pow_add, show 53 + k = n.log2 + 1 by omega]; exact_mod_cast hl2
    obtain ⟨e, h1, h2, h3⟩ := rnd64_pos (x := n) (by have : 0 < n := by omega
                                                     exact_mod_cast this)
    have he : e = k := le_antisymm (exp_lt_of (le_refl _) h1 g2) (exp_lt_of (le_refl _) g1 h2)
    subst he
    have hd := rhe_div (a := n) (b := 2 ^ k) (by positivity)
    have hke : n.log2 - 52 = k := by omega
    rw [h3, zpow_natCast]
    have h5 : (n : ℚ) / ((2 ^ k : ℕ) : ℚ) = (n : ℚ) / 2 ^ k := by push_cast; rfl
    rw [h5] at hd
    rw [← hd, roundNat, if_neg hn, hke]
    push_cast
    rfl

theorem roundF64_eq (v : ℤ) : (roundF64 v : ℚ) = rnd64 v := by
  unfold roundF64
  split
  · rename_i h
    have h1 : ((v.natAbs : ℕ) : ℚ) = -(v : ℚ) := by
      have : ((v.natAbs : ℕ) : ℤ) = -v := by omega
      rw [← Int.cast_natCast, this]; push_cast; rfl
    push_cast
    rw [roundNat_eq, h1, rnd64_neg, neg_neg]
  · rename_i h
    have h1 : ((v.natAbs : ℕ) : ℚ) = (v : ℚ) := by
      have : ((v.natAbs : ℕ) : ℤ) = v := by omega
      rw [← Int.cast_natCast, this]
    push_cast
    rw [roundNat_eq, h1]

theorem roundF64_idem (v : ℤ) : roundF64 (roundF64 v) = roundF64 v := by
  have : ((roundF64 (roundF64 v) : ℤ) : ℚ) = (roundF64 v : ℚ) := by
    rw [roundF64_eq, roundF64_eq, rnd64_rounding.idem]
  exact_mod_cast this

end Verif
