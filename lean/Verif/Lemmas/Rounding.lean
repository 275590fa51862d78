import Verif.Model.Eval
import Verif.Spec.Rounding
import Mathlib.Data.Rat.Floor
import Mathlib.Algebra.Order.Field.Power
import Mathlib.Tactic.Linarith
import Mathlib.Tactic.Ring
import Mathlib.Tactic.FieldSimp
import Mathlib.Tactic.Positivity
/-!
# Binary64 rounding is monotone, and exact on numbers of 53 bits
-/

namespace Verif

/-- `t` rounded to an integer, ties to even -/
def rhe (t : ℚ) : ℤ :=
  if 2 * (t - ⌊t⌋) < 1 then ⌊t⌋ else if 1 < 2 * (t - ⌊t⌋) then ⌊t⌋ + 1 else if ⌊t⌋ % 2 = 0 then ⌊t⌋ else ⌊t⌋ + 1

theorem floor_le_rhe (t : ℚ) : ⌊t⌋ ≤ rhe t := by
  unfold rhe; split <;> [skip; split <;> [skip; split]] <;> omega

theorem rhe_le (t : ℚ) : rhe t ≤ ⌊t⌋ + 1 := by
  unfold rhe; split <;> [skip; split <;> [skip; split]] <;> omega

theorem rhe_int (k : ℤ) : rhe (k : ℚ) = k := by
  unfold rhe; simp

theorem rhe_mono {t u : ℚ} (h : t ≤ u) : rhe t ≤ rhe u := by
  have hf := Int.floor_le_floor h
  rcases lt_or_eq_of_le hf with hlt | heq
  · have := rhe_le t
    have := floor_le_rhe u
    omega
  · unfold rhe
    rw [← heq]
    have h1 : 2 * (t - ⌊t⌋) ≤ 2 * (u - ⌊t⌋) := by linarith
    split
    · split <;> [skip; split <;> [skip; split]] <;> omega
    · rename_i h2
      split
      · rename_i h3
        rw [if_neg (by linarith), if_pos (by linarith)]
      · split
        · rename_i h4 h5
          split
          · omega
          · split
            · omega
            · exact le_refl _
        · rename_i h4 h5
          rw [if_neg (by linarith)]
          split
          · omega
          · exact le_refl _

theorem rhe_div {a b : Nat} (hb : 0 < b) :
    (if 2 * (a % b) < b then a / b else if b < 2 * (a % b) then a / b + 1 else if (a / b) % 2 = 0 then a / b else a / b + 1 : ℕ) = rhe ((a : ℚ) / b) := by
  have hbq : (0 : ℚ) < b := by exact_mod_cast hb
  have hfl : ⌊(a : ℚ) / b⌋ = ((a / b : ℕ) : ℤ) := by
    rw [Int.floor_eq_iff]
    constructor
    · rw [le_div_iff₀ hbq]
      exact_mod_cast Nat.div_mul_le_self a b
    · rw [div_lt_iff₀ hbq]
      have : a < b * (a / b + 1) := Nat.lt_mul_div_succ a hb
      rw [mul_comm]
      exact_mod_cast this
  have hfr : 2 * ((a : ℚ) / b - ((a / b : ℕ) : ℤ)) = (2 * (a % b) : ℕ) / b := by
    have : (a : ℚ) = b * ((a / b : ℕ) : ℚ) + ((a % b : ℕ) : ℚ) := by exact_mod_cast (Nat.div_add_mod a b).symm
    generalize a / b = d at *
    generalize a % b = r at *
    rw [this]
    field_simp
    push_cast
    ring
  unfold rhe
  rw [hfl, hfr]
  have e1 : ((2 * (a % b) : ℕ) : ℚ) / b < 1 ↔ 2 * (a % b) < b := by rw [div_lt_one hbq, Nat.cast_lt]
  have e2 : 1 < ((2 * (a % b) : ℕ) : ℚ) / b ↔ b < 2 * (a % b) := by rw [one_lt_div hbq, Nat.cast_lt]
  have e3 : ((a / b : ℕ) : ℤ) % 2 = 0 ↔ (a / b) % 2 = 0 := by omega
  simp only [e1, e2, e3]
  split <;> [skip; split <;> [skip; split]] <;> push_cast <;> rfl

/-- value of a dyadic number -/
def Dy.val (d : Dy) : ℚ := (d.frac.1 : ℚ) / d.frac.2

theorem Dy.val_eq (m : Nat) (e : Int) : Dy.val ⟨m, e⟩ = (m : ℚ) * 2 ^ e := by
  unfold Dy.val Dy.frac
  split
  · rename_i h
    obtain ⟨k, rfl⟩ := Int.eq_ofNat_of_zero_le h
    simp
  · rename_i h
    obtain ⟨k, hk⟩ := Int.eq_ofNat_of_zero_le (show 0 ≤ -e by simp at h; omega)
    have he : e = -(k : ℤ) := by omega
    subst he
    simp [div_eq_mul_inv]

/-- numerator and denominator of `p / q / 2 ^ e` -/
def scaleQ (p q : Nat) (e : Int) : Nat × Nat := if 0 ≤ e then (p, q * 2 ^ e.toNat) else (p * 2 ^ (-e).toNat, q)

/-- rounding of `s.1 / s.2` to a mantissa -/
def roundAt (s : Nat × Nat) (e : Int) : Dy :=
  if 2 * (s.1 % s.2) < s.2 then ⟨s.1 / s.2, e⟩ else if s.2 < 2 * (s.1 % s.2) then ⟨s.1 / s.2 + 1, e⟩
  else if s.1 / s.2 % 2 = 0 then ⟨s.1 / s.2, e⟩ else ⟨s.1 / s.2 + 1, e⟩

/-- the exponent -/
def expOf (p q : Nat) : Int :=
  let e0 : Int := (p.log2 : Int) - q.log2 - 52
  if (scaleQ p q e0).1 / (scaleQ p q e0).2 < 2 ^ 52 then e0 - 1 else if 2 ^ 53 ≤ (scaleQ p q e0).1 / (scaleQ p q e0).2 then e0 + 1 else e0

theorem roundQ_eq (p q : Nat) : roundQ p q = if p = 0 then ⟨0, 0⟩ else roundAt (scaleQ p q (expOf p q)) (expOf p q) := rfl

theorem scale_val (p q : Nat) (e : Int) : ((scaleQ p q e).1 : ℚ) / (scaleQ p q e).2 = (p : ℚ) / q / 2 ^ e := by
  unfold scaleQ
  split
  · rename_i h
    obtain ⟨k, rfl⟩ := Int.eq_ofNat_of_zero_le h
    simp [div_div]
  · rename_i h
    obtain ⟨k, hk⟩ := Int.eq_ofNat_of_zero_le (show 0 ≤ -e by simp at h; omega)
    have he : e = -(k : ℤ) := by omega
    subst he
    simp
    ring

theorem scale_pos (p : Nat) {q : Nat} (hq : 0 < q) (e : Int) : 0 < (scaleQ p q e).2 := by
  unfold scaleQ
  split
  · exact Nat.mul_pos hq (by positivity)
  · exact hq

theorem roundAt_val {p q : Nat} (hq : 0 < q) (e : Int) : (roundAt (scaleQ p q e) e).val = (rhe ((p : ℚ) / q / 2 ^ e) : ℚ) * 2 ^ e := by
  have hr := rhe_div (a := (scaleQ p q e).1) (scale_pos p hq e)
  rw [scale_val] at hr
  rw [← hr]
  generalize scaleQ p q e = s
  unfold roundAt
  split <;> [skip; split <;> [skip; split]] <;> rw [Dy.val_eq] <;> push_cast <;> rfl

theorem le_scale_iff (p : Nat) {q : Nat} (hq : 0 < q) (e : Int) (k : Nat) :
    k ≤ (scaleQ p q e).1 / (scaleQ p q e).2 ↔ (k : ℚ) * 2 ^ e ≤ (p : ℚ) / q := by
  have hb := scale_pos p hq e
  have hbq : (0 : ℚ) < (scaleQ p q e).2 := by exact_mod_cast hb
  rw [Nat.le_div_iff_mul_le hb, ← le_div_iff₀ (by positivity), ← scale_val, le_div_iff₀ hbq]
  exact_mod_cast Iff.rfl

/-- rounding of a positive quotient -/
theorem roundQ_spec {p q : Nat} (hp : 0 < p) (hq : 0 < q) :
    ∃ e : ℤ, (2 : ℚ) ^ 52 * 2 ^ e ≤ (p : ℚ) / q ∧ (p : ℚ) / q < 2 ^ 53 * 2 ^ e ∧ (roundQ p q).val = (rhe ((p : ℚ) / q / 2 ^ e) : ℚ) * 2 ^ e := by
  have hpq : (0 : ℚ) < p := by exact_mod_cast hp
  have hqq : (0 : ℚ) < q := by exact_mod_cast hq
  have hp1 : ((2 : ℚ)) ^ p.log2 ≤ p := by exact_mod_cast Nat.log2_self_le (by omega)
  have hp2 : (p : ℚ) < 2 ^ (p.log2 + 1) := by exact_mod_cast Nat.lt_log2_self
  have hq1 : ((2 : ℚ)) ^ q.log2 ≤ q := by exact_mod_cast Nat.log2_self_le (by omega)
  have hq2 : (q : ℚ) < 2 ^ (q.log2 + 1) := by exact_mod_cast Nat.lt_log2_self
  have h2 : (2 : ℚ) ≠ 0 := by norm_num
  have hpow : (2 : ℚ) ^ ((p.log2 : Int) - q.log2 - 52) = 2 ^ p.log2 / 2 ^ q.log2 / 2 ^ 52 := by
    rw [zpow_sub₀ h2, zpow_sub₀ h2]
    norm_cast
  have hlo : (2 : ℚ) ^ 51 * 2 ^ ((p.log2 : Int) - q.log2 - 52) < (p : ℚ) / q := by
    rw [hpow, lt_div_iff₀ hqq]
    have : (2 : ℚ) ^ 51 * (2 ^ p.log2 / 2 ^ q.log2 / 2 ^ 52) * q = 2 ^ p.log2 * (q / (2 ^ (q.log2 + 1))) := by
      rw [pow_succ (2 : ℚ) q.log2]; field_simp
    rw [this]
    have h3 : (q : ℚ) / 2 ^ (q.log2 + 1) < 1 := by rw [div_lt_one (by positivity)]; exact hq2
    have h4 : (0 : ℚ) < 2 ^ p.log2 := by positivity
    nlinarith
  have hhi : (p : ℚ) / q < (2 : ℚ) ^ 53 * 2 ^ ((p.log2 : Int) - q.log2 - 52) := by
    rw [hpow, div_lt_iff₀ hqq]
    have : (2 : ℚ) ^ 53 * (2 ^ p.log2 / 2 ^ q.log2 / 2 ^ 52) * q = 2 ^ (p.log2 + 1) * (q / (2 ^ q.log2)) := by
      rw [pow_succ (2 : ℚ) p.log2]; field_simp
    rw [this]
    have h3 : 1 ≤ (q : ℚ) / 2 ^ q.log2 := by rw [one_le_div (by positivity)]; exact hq1
    have h4 : (0 : ℚ) < 2 ^ (p.log2 + 1) := by positivity
    nlinarith
  rw [roundQ_eq, if_neg (by omega)]
  refine ⟨expOf p q, ?_, ?_, roundAt_val hq _⟩
  all_goals
    unfold expOf
    simp only
    generalize hE : (p.log2 : Int) - q.log2 - 52 = e0 at *
    have hs : (2 : ℚ) ^ (e0 - 1) = 2 ^ e0 / 2 := by rw [zpow_sub₀ h2]; norm_num
    have h53 := le_scale_iff p hq e0 (2 ^ 53)
    have h52 := le_scale_iff p hq e0 (2 ^ 52)
    have hbig : ¬ 2 ^ 53 ≤ (scaleQ p q e0).1 / (scaleQ p q e0).2 := by
      rw [h53]; push_cast; linarith
    rw [if_neg hbig]
    split
    · rename_i h
      rw [← not_le, h52] at h
      push_cast at h
      rw [hs]
      linarith
    · rename_i h
      rw [not_lt, h52] at h
      push_cast at h
      linarith

theorem rnd64_zero : rnd64 0 = 0 := by decide +kernel

theorem rnd64_pos {x : ℚ} (hx : 0 < x) :
    ∃ e : ℤ, (2 : ℚ) ^ 52 * 2 ^ e ≤ x ∧ x < 2 ^ 53 * 2 ^ e ∧ rnd64 x = (rhe (x / 2 ^ e) : ℚ) * 2 ^ e := by
  have hn : 0 < x.num := Rat.num_pos.2 hx
  have hxe : ((x.num.natAbs : ℕ) : ℚ) / x.den = x := by
    have : ((x.num.natAbs : ℕ) : ℚ) = (x.num : ℚ) := by
      rw [← Int.cast_natCast, show ((x.num.natAbs : ℕ) : ℤ) = x.num by omega]
    rw [this, Rat.num_div_den]
  obtain ⟨e, h1, h2, h3⟩ := roundQ_spec (p := x.num.natAbs) (q := x.den) (by omega) x.den_pos
  rw [hxe] at h1 h2 h3
  refine ⟨e, h1, h2, ?_⟩
  rw [← h3]
  simp only [rnd64, if_neg (not_lt.2 hx.le)]
  rfl

theorem rnd64_neg (x : ℚ) : rnd64 (-x) = -rnd64 x := by
  rcases lt_trichotomy x 0 with h | h | h
  · simp only [rnd64, Rat.num_neg_eq_neg_num, Rat.den_neg_eq_den, Int.natAbs_neg, if_pos h, if_neg (show ¬ -x < 0 by linarith), neg_neg]
  · subst h; simp [rnd64_zero]
  · simp only [rnd64, Rat.num_neg_eq_neg_num, Rat.den_neg_eq_den, Int.natAbs_neg, if_neg (not_lt.2 h.le), if_pos (show -x < 0 by linarith)]

theorem rhe_bounds {x : ℚ} {e : ℤ} (h1 : (2 : ℚ) ^ 52 * 2 ^ e ≤ x) (h2 : x < 2 ^ 53 * 2 ^ e) : 2 ^ 52 ≤ rhe (x / 2 ^ e) ∧ rhe (x / 2 ^ e) ≤ 2 ^ 53 := by
  have hp : (0 : ℚ) < 2 ^ e := by positivity
  constructor
  · refine le_trans ?_ (floor_le_rhe _)
    rw [Int.le_floor]
    push_cast
    rwa [le_div_iff₀ hp]
  · refine le_trans (rhe_le _) ?_
    have : ⌊x / 2 ^ e⌋ < 2 ^ 53 := by
      rw [Int.floor_lt]
      push_cast
      rwa [div_lt_iff₀ hp]
    omega

theorem exp_lt_of {e e' : ℤ} {x y : ℚ} (h : x ≤ y) (h1 : (2 : ℚ) ^ 52 * 2 ^ e ≤ x) (h2 : y < 2 ^ 53 * 2 ^ e') : e ≤ e' := by
  have h3 : (2 : ℚ) ^ 52 * 2 ^ e < 2 ^ 52 * 2 ^ (e' + 1) := by
    rw [zpow_add_one₀ (by norm_num)]
    linarith
  have h4 : (2 : ℚ) ^ e < 2 ^ (e' + 1) := by nlinarith
  have := (zpow_lt_zpow_iff_right₀ (by norm_num : (1 : ℚ) < 2)).1 h4
  omega

theorem rnd64_nonneg {x : ℚ} (hx : 0 < x) : 0 < rnd64 x := by
  obtain ⟨e, h1, h2, h3⟩ := rnd64_pos hx
  rw [h3]
  have h4 : (0 : ℚ) < (rhe (x / 2 ^ e) : ℚ) := by
    have := (rhe_bounds h1 h2).1
    exact_mod_cast (by omega : (0 : ℤ) < rhe (x / 2 ^ e))
  positivity

theorem rnd64_mono_pos {x y : ℚ} (hx : 0 < x) (h : x ≤ y) : rnd64 x ≤ rnd64 y := by
  obtain ⟨e, h1, h2, h3⟩ := rnd64_pos hx
  obtain ⟨e', h1', h2', h3'⟩ := rnd64_pos (lt_of_lt_of_le hx h)
  rw [h3, h3']
  have hp : (0 : ℚ) < 2 ^ e := by positivity
  rcases lt_or_eq_of_le (exp_lt_of h h1 h2') with hlt | rfl
  · have a1 : (rhe (x / 2 ^ e) : ℚ) ≤ 2 ^ 53 := by exact_mod_cast (rhe_bounds h1 h2).2
    have a2 : (2 : ℚ) ^ 52 ≤ (rhe (y / 2 ^ e') : ℚ) := by exact_mod_cast (rhe_bounds h1' h2').1
    have a3 : (2 : ℚ) ^ (e + 1) ≤ 2 ^ e' := zpow_le_zpow_right₀ (by norm_num) (by omega)
    rw [zpow_add_one₀ (by norm_num)] at a3
    have a4 : (0 : ℚ) < 2 ^ e' := by positivity
    nlinarith
  · have : (rhe (x / 2 ^ e) : ℚ) ≤ (rhe (y / 2 ^ e) : ℚ) := by
      exact_mod_cast rhe_mono (div_le_div_of_nonneg_right h hp.le)
    exact mul_le_mul_of_nonneg_right this hp.le

/-- numbers of at most 53 bits are not changed -/
theorem rnd64_exact {m : ℕ} (hm : m ≤ 2 ^ 53) (e : ℤ) : rnd64 ((m : ℚ) * 2 ^ e) = (m : ℚ) * 2 ^ e := by
  have key : ∀ (m : ℕ) (e : ℤ), 0 < m → m < 2 ^ 53 → rnd64 ((m : ℚ) * 2 ^ e) = (m : ℚ) * 2 ^ e := by
    intro m e hm0 hm
    have hpos : (0 : ℚ) < (m : ℚ) * 2 ^ e := by
      have : (0 : ℚ) < m := by exact_mod_cast hm0
      positivity
    obtain ⟨e', h1, h2, h3⟩ := rnd64_pos hpos
    have hle : e' ≤ e := exp_lt_of (le_refl _) h1 (by
      have : (m : ℚ) < 2 ^ 53 := by exact_mod_cast hm
      have h4 : (0 : ℚ) < 2 ^ e := by positivity
      nlinarith)
    obtain ⟨k, hk⟩ := Int.eq_ofNat_of_zero_le (show 0 ≤ e - e' by omega)
    have he : e = e' + k := by omega
    subst he
    have hq : (m : ℚ) * 2 ^ (e' + k) / 2 ^ e' = ((m * 2 ^ k : ℕ) : ℤ) := by
      rw [zpow_add₀ (by norm_num)]
      push_cast
      field_simp
      norm_cast
    rw [h3, hq, rhe_int, ← hq]
    field_simp
  rcases Nat.eq_zero_or_pos m with rfl | h0
  · simp [rnd64_zero]
  · rcases lt_or_eq_of_le hm with hlt | rfl
    · exact key m e h0 hlt
    · have : (((2 ^ 53 : ℕ) : ℚ)) * 2 ^ e = ((2 ^ 52 : ℕ) : ℚ) * 2 ^ (e + 1) := by
        rw [zpow_add_one₀ (by norm_num)]; push_cast; ring
      rw [this]
      exact key _ _ (by norm_num) (by norm_num)

/-- binary64 is a rounding -/
theorem rnd64_rounding : Spec.Rounding rnd64 where
  mono := by
    intro x y h
    rcases lt_trichotomy x 0 with hx | hx | hx
    · rcases lt_trichotomy y 0 with hy | hy | hy
      · have := rnd64_mono_pos (x := -y) (y := -x) (by linarith) (by linarith)
        rw [rnd64_neg, rnd64_neg] at this
        linarith
      · subst hy
        have := rnd64_nonneg (x := -x) (by linarith)
        rw [rnd64_neg] at this
        rw [rnd64_zero]
        linarith
      · have := rnd64_nonneg (x := -x) (by linarith)
        rw [rnd64_neg] at this
        have := rnd64_nonneg hy
        linarith
    · subst hx
      rcases lt_or_eq_of_le h with hy | rfl
      · rw [rnd64_zero]; exact (rnd64_nonneg hy).le
      · exact le_refl _
    · exact rnd64_mono_pos hx h
  nat := by
    intro n hn
    have := rnd64_exact hn 0
    simpa using this
  idem := by
    have key : ∀ x : ℚ, 0 < x → rnd64 (rnd64 x) = rnd64 x := by
      intro x hx
      obtain ⟨e, h1, h2, h3⟩ := rnd64_pos hx
      obtain ⟨b1, b2⟩ := rhe_bounds h1 h2
      obtain ⟨m, hm⟩ := Int.eq_ofNat_of_zero_le (show 0 ≤ rhe (x / 2 ^ e) by omega)
      rw [h3, hm]
      exact_mod_cast rnd64_exact (m := m) (by rw [hm] at b2; exact_mod_cast b2) e
    intro x
    rcases lt_trichotomy x 0 with hx | hx | hx
    · have := key (-x) (by linarith)
      rw [rnd64_neg, rnd64_neg] at this
      linarith
    · subst hx; simp [rnd64_zero]
    · exact key x hx
  dbl := by
    have key : ∀ x : ℚ, 0 < x → rnd64 (2 * x) = 2 * rnd64 x := by
      intro x hx
      obtain ⟨e, h1, h2, h3⟩ := rnd64_pos hx
      obtain ⟨e', h1', h2', h3'⟩ := rnd64_pos (x := 2 * x) (by linarith)
      have hz : (2 : ℚ) ^ (e + 1) = 2 ^ e * 2 := zpow_add_one₀ (by norm_num) e
      have a1 : e' ≤ e + 1 := exp_lt_of (le_refl _) h1' (by rw [hz]; linarith)
      have a2 : e + 1 ≤ e' := exp_lt_of (le_refl (2 * x)) (by rw [hz]; linarith) h2'
      have : e' = e + 1 := by omega
      subst this
      have hd : 2 * x / 2 ^ (e + 1) = x / 2 ^ e := by rw [hz]; field_simp
      rw [h3', h3, hd, hz]
      ring
    intro x
    rcases lt_trichotomy x 0 with hx | hx | hx
    · have := key (-x) (by linarith)
      rw [show 2 * -x = -(2 * x) by ring, rnd64_neg, rnd64_neg] at this
      linarith
    · subst hx; simp [rnd64_zero]
    · exact key x hx

/-- so is exact arithmetic -/
theorem id_rounding : Spec.Rounding (fun x => x) where
  mono h := h
  nat _ _ := rfl
  idem _ := rfl
  dbl _ := rfl

end Verif
