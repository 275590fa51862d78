import Verif.Model.QualityFloat
import Verif.Props.Quality
import Verif.Props.F1
/-!
# C59 in binary64: what rounding does to the imbalance
-/

namespace Verif

namespace Spec

/-- `s` is a sum of the numbers `l` computed with rounded additions, in any order and with any bracketing -/
inductive RoundedSum (fl : ℚ → ℚ) : List ℚ → ℚ → Prop
  | none : RoundedSum fl [] 0
  | one (x : ℚ) : RoundedSum fl [x] x
  | add {a b c : List ℚ} {u v : ℚ} : a ≠ [] → b ≠ [] → RoundedSum fl a u → RoundedSum fl b v → c.Perm (a ++ b) → RoundedSum fl c (fl (u + v))

/-- the imbalance of counts: half the distance of their distribution from the uniform one -/
def unevenness (stats : List ℕ) : ℚ := 1 / 2 * (stats.map fun x : ℕ => |(x : ℚ) / stats.sum - 1 / stats.length|).sum

end Spec
open Spec

theorem RoundedSum.bounds {l : List ℚ} {s : ℚ} (h : RoundedSum rnd64 l s) (hl : ∀ x ∈ l, 0 ≤ x) :
    l.sum * (1 - 1 / 2 ^ 53) ^ l.length ≤ s ∧ s ≤ l.sum * (1 + 1 / 2 ^ 53) ^ l.length := by
  induction h with
  | none => simp
  | one x =>
    have := hl x (by simp)
    simp only [List.sum_cons, List.sum_nil, add_zero, List.length_cons, List.length_nil, zero_add, pow_one]
    constructor <;> nlinarith
  | @add a b c u v ha hb _ _ hp iha ihb =>
    have hA : ∀ x ∈ a, 0 ≤ x := fun x hx => hl x (hp.mem_iff.2 (by simp [hx]))
    have hB : ∀ x ∈ b, 0 ≤ x := fun x hx => hl x (hp.mem_iff.2 (by simp [hx]))
    obtain ⟨a1, a2⟩ := iha hA
    obtain ⟨b1, b2⟩ := ihb hB
    have sA := List.sum_nonneg hA
    have sB := List.sum_nonneg hB
    have la := List.length_pos_iff.2 ha
    have lb := List.length_pos_iff.2 hb
    obtain ⟨n, hn⟩ : ∃ n, a.length + b.length = n + 1 := ⟨a.length + b.length - 1, by omega⟩
    have hc : c.length = n + 1 := by rw [hp.length_eq, List.length_append, hn]
    have hs : c.sum = a.sum + b.sum := by rw [hp.sum_eq, List.sum_append]
    rw [hc, hs]
    have hU : (0 : ℚ) ≤ 1 - 1 / 2 ^ 53 := by norm_num
    have hU1 : (1 : ℚ) - 1 / 2 ^ 53 ≤ 1 := by norm_num
    have hV1 : (1 : ℚ) ≤ 1 + 1 / 2 ^ 53 := by norm_num
    have pA : ((1 : ℚ) - 1 / 2 ^ 53) ^ n ≤ (1 - 1 / 2 ^ 53) ^ a.length := pow_le_pow_of_le_one hU hU1 (by omega)
    have pB : ((1 : ℚ) - 1 / 2 ^ 53) ^ n ≤ (1 - 1 / 2 ^ 53) ^ b.length := pow_le_pow_of_le_one hU hU1 (by omega)
    have qA : ((1 : ℚ) + 1 / 2 ^ 53) ^ a.length ≤ (1 + 1 / 2 ^ 53) ^ n := pow_le_pow_right₀ hV1 (by omega)
    have qB : ((1 : ℚ) + 1 / 2 ^ 53) ^ b.length ≤ (1 + 1 / 2 ^ 53) ^ n := pow_le_pow_right₀ hV1 (by omega)
    have lo : (a.sum + b.sum) * (1 - 1 / 2 ^ 53) ^ n ≤ u + v := by
      have := mul_le_mul_of_nonneg_left pA sA
      have := mul_le_mul_of_nonneg_left pB sB
      linarith
    have hi : u + v ≤ (a.sum + b.sum) * (1 + 1 / 2 ^ 53) ^ n := by
      have := mul_le_mul_of_nonneg_left qA sA
      have := mul_le_mul_of_nonneg_left qB sB
      linarith
    have h0 : 0 ≤ u + v := le_trans (mul_nonneg (add_nonneg sA sB) (pow_nonneg hU _)) lo
    obtain ⟨r1, r2⟩ := rnd64_rel h0
    constructor
    · rw [pow_succ, ← mul_assoc]
      exact le_trans (mul_le_mul_of_nonneg_right lo hU) r1
    · rw [pow_succ, ← mul_assoc]
      exact le_trans r2 (mul_le_mul_of_nonneg_right hi (by norm_num))

/-- one term of the sum: the rounded distance of the rounded quotients -/
theorem emd_term {p c : ℚ} (hp : 0 ≤ p) (hc : 0 ≤ c) :
    abs (|rnd64 (rnd64 p - rnd64 c)| - |p - c|) ≤ (p + c) * (2 / 2 ^ 53 + 1 / 2 ^ 106) := by
  have e1 := rnd64_err p
  have e2 := rnd64_err c
  have e3 := rnd64_err (rnd64 p - rnd64 c)
  rw [abs_of_nonneg hp] at e1
  rw [abs_of_nonneg hc] at e2
  have t1 : |(rnd64 p - rnd64 c) - (p - c)| ≤ (p + c) / 2 ^ 53 := by
    have : (rnd64 p - rnd64 c) - (p - c) = (rnd64 p - p) - (rnd64 c - c) := by ring
    rw [this]
    refine (abs_sub _ _).trans ?_
    rw [add_div]; exact add_le_add e1 e2
  have t2 : |rnd64 p - rnd64 c| ≤ (p + c) + (p + c) / 2 ^ 53 := by
    have h1 : |p - c| ≤ p + c := by rw [abs_le]; constructor <;> linarith
    have h2 := abs_sub_abs_le_abs_sub (rnd64 p - rnd64 c) (p - c)
    linarith
  have t3 : |rnd64 (rnd64 p - rnd64 c) - (p - c)| ≤ (p + c) * (2 / 2 ^ 53 + 1 / 2 ^ 106) := by
    have : rnd64 (rnd64 p - rnd64 c) - (p - c) = (rnd64 (rnd64 p - rnd64 c) - (rnd64 p - rnd64 c)) + ((rnd64 p - rnd64 c) - (p - c)) := by ring
    rw [this]
    refine (abs_add_le _ _).trans ?_
    have : |rnd64 p - rnd64 c| / 2 ^ 53 ≤ ((p + c) + (p + c) / 2 ^ 53) / 2 ^ 53 := by gcongr
    have e : (p + c) * (2 / 2 ^ 53 + 1 / 2 ^ 106) = ((p + c) + (p + c) / 2 ^ 53) / 2 ^ 53 + (p + c) / 2 ^ 53 := by ring
    linarith
  exact (abs_abs_sub_abs_le _ _).trans t3

theorem abs_sum_sub_le {α : Type} {l : List α} {f g h : α → ℚ} (H : ∀ x ∈ l, |f x - g x| ≤ h x) :
    |(l.map f).sum - (l.map g).sum| ≤ (l.map h).sum := by
  induction l with
  | nil => simp
  | cons a l ih =>
    simp only [List.map_cons, List.sum_cons]
    have h1 := H a (by simp)
    have h2 := ih fun x hx => H x (by simp [hx])
    have : f a + (l.map f).sum - (g a + (l.map g).sum) = (f a - g a) + ((l.map f).sum - (l.map g).sum) := by ring
    rw [this]
    exact (abs_add_le _ _).trans (add_le_add h1 h2)

theorem natCast_sum_rat (l : List ℕ) : (l.map fun x : ℕ => (x : ℚ)).sum = (l.sum : ℚ) := by
  induction l with
  | nil => simp
  | cons a l ih =>
    rw [List.map_cons, List.sum_cons, List.sum_cons, ih]
    push_cast; rfl

theorem sum_map_div_add (l : List ℕ) (n c m : ℚ) :
    (l.map fun x : ℕ => ((x : ℚ) / n + c) * m).sum = ((l.sum : ℚ) / n + l.length * c) * m := by
  induction l with
  | nil => simp
  | cons a l ih =>
    simp only [List.map_cons, List.sum_cons, ih, List.length_cons]
    push_cast; ring

theorem pow_up (n : ℕ) : ((1 : ℚ) + 1 / 2 ^ 53) ^ n * (1 - n / 2 ^ 53) ≤ 1 := by
  have b := one_add_mul_le_pow (a := -(1 : ℚ) / 2 ^ 53) (by norm_num) n
  have h1 : (1 : ℚ) - n / 2 ^ 53 ≤ (1 - 1 / 2 ^ 53) ^ n := by
    have e1 : (1 : ℚ) + n * (-(1 : ℚ) / 2 ^ 53) = 1 - n / 2 ^ 53 := by ring
    have e2 : (1 : ℚ) + -(1 : ℚ) / 2 ^ 53 = 1 - 1 / 2 ^ 53 := by ring
    rwa [e1, e2] at b
  calc ((1 : ℚ) + 1 / 2 ^ 53) ^ n * (1 - n / 2 ^ 53) ≤ (1 + 1 / 2 ^ 53) ^ n * (1 - 1 / 2 ^ 53) ^ n :=
        mul_le_mul_of_nonneg_left h1 (by positivity)
    _ = ((1 + 1 / 2 ^ 53) * (1 - 1 / 2 ^ 53)) ^ n := by rw [mul_pow]
    _ ≤ 1 := pow_le_one₀ (by norm_num) (by norm_num)

theorem pow_down (n : ℕ) : 1 - (n : ℚ) / 2 ^ 53 ≤ (1 - 1 / 2 ^ 53) ^ n := by
  have b := one_add_mul_le_pow (a := -(1 : ℚ) / 2 ^ 53) (by norm_num) n
  have e1 : (1 : ℚ) + n * (-(1 : ℚ) / 2 ^ 53) = 1 - n / 2 ^ 53 := by ring
  have e2 : (1 : ℚ) + -(1 : ℚ) / 2 ^ 53 = 1 - 1 / 2 ^ 53 := by ring
  rwa [e1, e2] at b

theorem absF_eq (x : ℚ) : absF x = |x| := by
  unfold absF
  split
  · rename_i h; rw [abs_of_neg h]
  · rename_i h; rw [abs_of_nonneg (not_lt.1 h)]

theorem all_eq_iff_uniform (stats : List ℕ) :
    (∀ x ∈ stats, ∀ y ∈ stats, x = y) ↔ ∀ x ∈ stats, x * stats.length = stats.sum := by
  constructor
  · intro h x hx
    have : stats = List.replicate stats.length x := List.eq_replicate_iff.2 ⟨rfl, fun y hy => h y hy x hx⟩
    rw [this, List.length_replicate, List.sum_replicate, smul_eq_mul, mul_comm]
  · intro h x hx y hy
    have hk : 0 < stats.length := List.length_pos_of_mem hx
    exact Nat.eq_of_mul_eq_mul_right hk ((h x hx).trans (h y hy).symm)

/-- equal rounded quotients of counts of a moderate total are equal -/
theorem rnd64_quot_inj {x n k : ℕ} (hn : 0 < n) (hk : 0 < k) (hn' : n ≤ 2 ^ 51)
    (h : rnd64 ((x : ℚ) / n) = rnd64 (1 / k)) : x * k = n := by
  have hn0 : (0 : ℚ) < n := by exact_mod_cast hn
  have hk0 : (0 : ℚ) < k := by exact_mod_cast hk
  obtain ⟨a1, a2⟩ := rnd64_rel (x := (x : ℚ) / n) (by positivity)
  obtain ⟨b1, b2⟩ := rnd64_rel (x := 1 / (k : ℚ)) (by positivity)
  rw [h] at a1 a2
  have c1 : (x : ℚ) / n * (1 - 1 / 2 ^ 53) ≤ 1 / k * (1 + 1 / 2 ^ 53) := a1.trans b2
  have c2 : 1 / (k : ℚ) * (1 - 1 / 2 ^ 53) ≤ x / n * (1 + 1 / 2 ^ 53) := b1.trans a2
  have e1 : (x : ℚ) / n * (n * k) = x * k := by field_simp
  have e2 : 1 / (k : ℚ) * (n * k) = n := by field_simp
  have hnk : (0 : ℚ) ≤ n * k := by positivity
  have d1 : (x : ℚ) * k * (1 - 1 / 2 ^ 53) ≤ n * (1 + 1 / 2 ^ 53) := by
    have := mul_le_mul_of_nonneg_right c1 hnk
    rw [← e1]; conv_rhs => rw [← e2]
    linarith
  have d2 : (n : ℚ) * (1 - 1 / 2 ^ 53) ≤ x * k * (1 + 1 / 2 ^ 53) := by
    have := mul_le_mul_of_nonneg_right c2 hnk
    rw [← e1]; conv_lhs => rw [← e2]
    linarith
  have hN : (n : ℚ) ≤ 2 ^ 51 := by exact_mod_cast hn'
  have f1 : ((x * k : ℕ) : ℚ) < ((n + 1 : ℕ) : ℚ) := by
    push_cast
    nlinarith
  have f2 : ((n : ℕ) : ℚ) < ((x * k + 1 : ℕ) : ℚ) := by
    push_cast
    by_contra hc
    rw [not_lt] at hc
    nlinarith
  have g1 : x * k < n + 1 := by exact_mod_cast f1
  have g2 : n < x * k + 1 := by exact_mod_cast f2
  omega

/-- C59 in binary64: for a vocabulary of at most 2^26 types and at most 2^51 tokens, whatever the order in which `numpy` adds, the imbalance is
a number of [0, 1), it differs from the exact one by at most (k + 4) / 2^53, and it is 0 exactly if all counts are equal. -/
theorem C59_emd_float {npSum : List ℚ → ℚ} (hS : ∀ l, RoundedSum rnd64 l (npSum l)) {stats : List ℕ} (hk : stats.length ≤ 2 ^ 26)
    (hN : stats.sum ≤ 2 ^ 51) (h0 : stats.sum ≠ 0) :
    ∃ d, emdF64 npSum stats = .ok (some d) ∧ 0 ≤ d ∧ d < 1 ∧ |d - unevenness stats| ≤ (stats.length + 4) / 2 ^ 53 ∧
      (d = 0 ↔ ∀ x ∈ stats, ∀ y ∈ stats, x = y) := by
  have hlen : stats.length ≠ 0 := by
    rintro h
    rw [List.length_eq_zero_iff.1 h] at h0
    simp at h0
  have hk0 : (0 : ℚ) < stats.length := by exact_mod_cast Nat.pos_of_ne_zero hlen
  have hn0 : (0 : ℚ) < (stats.sum : ℚ) := by exact_mod_cast Nat.pos_of_ne_zero h0
  have rt : rnd64 (stats.sum : ℚ) = stats.sum := rnd64_rounding.nat _ (hN.trans (by norm_num))
  have hle : ∀ x ∈ stats, x ≤ stats.sum := fun x hx => List.le_sum_of_mem hx
  have rx : ∀ x ∈ stats, rnd64 (x : ℚ) = x := fun x hx => rnd64_rounding.nat _ ((hle x hx).trans (hN.trans (by norm_num)))
  -- the terms
  set T : List ℚ := stats.map fun x : ℕ => |rnd64 (rnd64 ((x : ℚ) / stats.sum) - rnd64 (1 / stats.length))| with hT
  have hmap : (stats.map fun x : ℕ => rnd64 (rnd64 (x : ℚ) / rnd64 (stats.sum : ℚ))).map (fun p => |rnd64 (p - rnd64 (1 / stats.length))|) = T := by
    rw [List.map_map, hT]
    apply List.map_congr_left
    intro x hx
    simp only [Function.comp, rt, rx x hx]
  have hTn : ∀ t ∈ T, 0 ≤ t := by
    intro t ht
    obtain ⟨x, _, rfl⟩ := List.mem_map.1 ht
    exact abs_nonneg _
  have hTl : T.length = stats.length := List.length_map _
  have hT0 := List.sum_nonneg hTn
  obtain ⟨s1, s2⟩ := RoundedSum.bounds (hS T) hTn
  rw [hTl] at s1 s2
  have hU : (0 : ℚ) < 1 - 1 / 2 ^ 53 := by norm_num
  have hs0 : 0 ≤ npSum T := le_trans (mul_nonneg hT0 (pow_nonneg hU.le _)) s1
  obtain ⟨r1, r2⟩ := rnd64_rel (x := 1 / 2 * npSum T) (by positivity)
  -- the exact value
  obtain ⟨E0, E1, E2, _⟩ := emd_bounds (l := stats.map fun x : ℕ => (x : ℚ)) (by
    intro x hx
    obtain ⟨y, _, rfl⟩ := List.mem_map.1 hx
    exact Nat.cast_nonneg _) (by rw [natCast_sum_rat]; exact hn0)
  rw [natCast_sum_rat, List.length_map, List.map_map] at E0 E1
  have hE : unevenness stats = 1 / 2 * (stats.map ((fun x : ℚ => |x / stats.sum - 1 / stats.length|) ∘ fun x : ℕ => (x : ℚ))).sum := rfl
  have hi0 : 0 ≤ unevenness stats := by rw [hE]; linarith
  have hi1 : unevenness stats ≤ 1 - 1 / stats.length := by rw [hE]; linarith
  have hTE : |T.sum - 2 * unevenness stats| ≤ 4 / 2 ^ 53 + 2 / 2 ^ 106 := by
    have h1 := abs_sum_sub_le (l := stats) (f := fun x : ℕ => |rnd64 (rnd64 ((x : ℚ) / stats.sum) - rnd64 (1 / stats.length))|)
      (g := fun x : ℕ => |(x : ℚ) / stats.sum - 1 / stats.length|)
      (h := fun x : ℕ => ((x : ℚ) / stats.sum + 1 / stats.length) * (2 / 2 ^ 53 + 1 / 2 ^ 106))
      (fun x _ => emd_term (by positivity) (by positivity))
    rw [sum_map_div_add, div_self hn0.ne', mul_one_div_cancel hk0.ne'] at h1
    have e : 2 * unevenness stats = (stats.map fun x : ℕ => |(x : ℚ) / stats.sum - 1 / stats.length|).sum := by
      rw [unevenness]; ring
    rw [e]
    refine h1.trans (le_of_eq ?_)
    norm_num
  rw [abs_le] at hTE
  obtain ⟨t1, t2⟩ := hTE
  generalize hd : rnd64 (1 / 2 * npSum T) = d at r1 r2
  generalize hkk : (stats.length : ℚ) = K at *
  have hK : K ≤ 2 ^ 26 := by rw [← hkk]; exact_mod_cast hk
  have up : d * (1 - (K + 1) / 2 ^ 53) ≤ unevenness stats + 3 / 2 ^ 53 := by
    have p := pow_up (stats.length + 1)
    have w : d ≤ 1 / 2 * T.sum * (1 + 1 / 2 ^ 53) ^ (stats.length + 1) := by
      rw [pow_succ]
      have := mul_le_mul_of_nonneg_right s2 (by norm_num : (0 : ℚ) ≤ 1 / 2 * (1 + 1 / 2 ^ 53))
      linarith
    have e : ((stats.length + 1 : ℕ) : ℚ) = K + 1 := by push_cast; rw [hkk]
    rw [e] at p
    have hpos : (0 : ℚ) ≤ 1 - (K + 1) / 2 ^ 53 := by
      have : (K + 1) / 2 ^ 53 ≤ (2 ^ 26 + 1) / 2 ^ 53 := by gcongr
      have : ((2 : ℚ) ^ 26 + 1) / 2 ^ 53 ≤ 1 := by norm_num
      linarith
    have w2 := mul_le_mul_of_nonneg_right w hpos
    have w3 : 1 / 2 * T.sum * (1 + 1 / 2 ^ 53) ^ (stats.length + 1) * (1 - (K + 1) / 2 ^ 53) ≤ 1 / 2 * T.sum := by
      rw [mul_assoc]
      exact mul_le_of_le_one_right (by linarith) p
    have : (1 : ℚ) / 2 * (4 / 2 ^ 53 + 2 / 2 ^ 106) ≤ 3 / 2 ^ 53 := by norm_num
    linarith
  have lo : (unevenness stats - 3 / 2 ^ 53) * (1 - (K + 1) / 2 ^ 53) ≤ d := by
    have p := pow_down (stats.length + 1)
    have e : ((stats.length + 1 : ℕ) : ℚ) = K + 1 := by push_cast; rw [hkk]
    rw [e] at p
    have w : 1 / 2 * T.sum * (1 - 1 / 2 ^ 53) ^ (stats.length + 1) ≤ d := by
      rw [pow_succ]
      have := mul_le_mul_of_nonneg_right s1 (by norm_num : (0 : ℚ) ≤ 1 / 2 * (1 - 1 / 2 ^ 53))
      linarith
    have hpos : (0 : ℚ) ≤ 1 - (K + 1) / 2 ^ 53 := by
      have : (K + 1) / 2 ^ 53 ≤ (2 ^ 26 + 1) / 2 ^ 53 := by gcongr
      have : ((2 : ℚ) ^ 26 + 1) / 2 ^ 53 ≤ 1 := by norm_num
      linarith
    have h3 : unevenness stats - 3 / 2 ^ 53 ≤ 1 / 2 * T.sum := by
      have : (1 : ℚ) / 2 * (4 / 2 ^ 53 + 2 / 2 ^ 106) ≤ 3 / 2 ^ 53 := by norm_num
      linarith
    have w2 := mul_le_mul_of_nonneg_left p (by linarith : (0 : ℚ) ≤ 1 / 2 * T.sum)
    have w3 := mul_le_mul_of_nonneg_right h3 hpos
    linarith
  have hd0 : 0 ≤ d := le_trans (mul_nonneg (by positivity) hU.le) r1
  have hd1 : d < 1 := by
    have hKK : (K + 1) / 2 ^ 53 + 3 / 2 ^ 53 < 1 / K := by
      rw [← add_div, div_lt_div_iff₀ (by positivity) hk0]
      nlinarith
    by_contra hc
    rw [not_lt] at hc
    have hpos : (0 : ℚ) ≤ 1 - (K + 1) / 2 ^ 53 := by
      have : (K + 1) / 2 ^ 53 ≤ (2 ^ 26 + 1) / 2 ^ 53 := by gcongr
      have : ((2 : ℚ) ^ 26 + 1) / 2 ^ 53 ≤ 1 := by norm_num
      linarith
    have := mul_le_mul_of_nonneg_right hc hpos
    linarith
  refine ⟨d, ?_, hd0, hd1, ?_, ?_⟩
  · simp only [emdF64, absF_eq]
    rw [if_neg hlen, if_neg h0, hkk, hmap, hd]
  · have hKp : (0 : ℚ) ≤ (K + 1) / 2 ^ 53 := by positivity
    have hi1' : unevenness stats ≤ 1 := by
      have : 0 ≤ 1 / K := by positivity
      linarith
    have e : (K + 4) / 2 ^ 53 = (K + 1) / 2 ^ 53 + 3 / 2 ^ 53 := by rw [← add_div]; ring_nf
    rw [e]
    generalize (K + 1) / 2 ^ 53 = m at *
    rw [abs_le]
    constructor
    · have : (unevenness stats - 3 / 2 ^ 53) * (1 - m) ≥ unevenness stats - (m + 3 / 2 ^ 53) := by
        have a1 : unevenness stats * m ≤ m := mul_le_of_le_one_left hKp hi1'
        have a2 : 0 ≤ 3 / 2 ^ 53 * m := by positivity
        linarith
      linarith
    · have a1 : d * m ≤ m := mul_le_of_le_one_left hKp hd1.le
      linarith
  · rw [all_eq_iff_uniform]
    constructor
    · intro hz x hx
      have hs : npSum T = 0 := by
        by_contra hne
        have : 0 < rnd64 (1 / 2 * npSum T) := rnd64_nonneg (by
          have := lt_of_le_of_ne hs0 (Ne.symm hne)
          positivity)
        rw [hd, hz] at this
        exact lt_irrefl _ this
      have hTs : T.sum = 0 := by
        rw [hs] at s1
        by_contra hne
        have : 0 < T.sum := lt_of_le_of_ne hT0 (Ne.symm hne)
        have := mul_pos this (pow_pos hU stats.length)
        linarith
      have hz' := all_zero_of_sum hTn hTs _ (List.mem_map.2 ⟨x, hx, rfl⟩)
      have hz2 : rnd64 (rnd64 ((x : ℚ) / stats.sum) - rnd64 (1 / K)) = 0 := abs_eq_zero.1 (hkk ▸ hz')
      have hz3 : rnd64 ((x : ℚ) / stats.sum) = rnd64 (1 / K) := by
        have e := rnd64_err (rnd64 ((x : ℚ) / stats.sum) - rnd64 (1 / K))
        rw [hz2, zero_sub, abs_neg] at e
        have : |rnd64 ((x : ℚ) / stats.sum) - rnd64 (1 / K)| ≤ 0 := by
          have h2 := abs_nonneg (rnd64 ((x : ℚ) / stats.sum) - rnd64 (1 / K))
          have : |rnd64 ((x : ℚ) / stats.sum) - rnd64 (1 / K)| / 2 ^ 53 ≤ |rnd64 ((x : ℚ) / stats.sum) - rnd64 (1 / K)| / 2 := by
            gcongr; norm_num
          linarith
        exact sub_eq_zero.1 (abs_nonpos_iff.1 this)
      rw [← hkk] at hz3
      exact rnd64_quot_inj (Nat.pos_of_ne_zero h0) (Nat.pos_of_ne_zero hlen) hN hz3
    · intro hu
      have hTs : T.sum = 0 := by
        apply List.sum_eq_zero
        intro t ht
        obtain ⟨x, hx, rfl⟩ := List.mem_map.1 ht
        have hq : (x : ℚ) / stats.sum = 1 / K := by
          rw [← hu x hx]
          push_cast
          rw [hkk]
          have hx0 : (x : ℚ) ≠ 0 := by
            rintro h
            have hx0' : x = 0 := by exact_mod_cast h
            have := hu x hx
            rw [hx0', zero_mul] at this
            exact h0 this.symm
          field_simp
        simp only [hkk]
        rw [hq, sub_self, rnd64_zero, abs_zero]
      rw [hTs, zero_mul] at s2
      have hs : npSum T = 0 := le_antisymm s2 hs0
      rw [← hd, hs, mul_zero, rnd64_zero]

theorem sumFromRight_rounded (l : List ℚ) : RoundedSum rnd64 l (sumFromRight l) := by
  induction l with
  | nil => exact .none
  | cons x l ih =>
    cases l with
    | nil => exact .one x
    | cons y l => exact .add (a := [x]) (b := y :: l) (by simp) (by simp) (.one x) ih (List.Perm.refl _)

example : (∀ l, RoundedSum rnd64 l (sumFromRight l)) ∧ [3, 0, 7].length ≤ 2 ^ 26 ∧ [3, 0, 7].sum ≤ 2 ^ 51 ∧ [3, 0, 7].sum ≠ 0 :=
  ⟨sumFromRight_rounded, by norm_num, by norm_num, by norm_num⟩

/-- exactly 11/30 -/
example : emdF64 sumFromRight [3, 0, 7] = .ok (some (6605279453476727 / 2 ^ 54)) := by decide +kernel
example : emdF64 sumFromRight [3, 3, 3] = .ok (some 0) := by decide +kernel

/-- C59 is false in binary64 as far as the largest value is concerned: with a single token rounding can lift the imbalance above 1 - 1/k. -/
theorem C59_emd_largest_refuted : ∃ npSum : List ℚ → ℚ, (∀ l, RoundedSum rnd64 l (npSum l)) ∧ ∃ (stats : List ℕ) (d : ℚ),
    stats.sum = 1 ∧ emdF64 npSum stats = .ok (some d) ∧ 1 - 1 / (stats.length : ℚ) < d :=
  ⟨sumFromRight, sumFromRight_rounded, [1, 0, 0], 6004799503160662 / 2 ^ 53, by decide, by decide +kernel, by norm_num⟩

/-! ## The estimate of a text -/

theorem bump_nonneg {stats out : List Int} {t : Int} (h : bump stats t = .ok out) (hn : ∀ x ∈ stats, 0 ≤ x) : ∀ x ∈ out, 0 ≤ x := by
  unfold bump at h
  split at h
  · simp at h
  · rename_i v hv
    cases h
    intro x hx
    rcases List.mem_or_eq_of_mem_set hx with h | rfl
    · exact hn x h
    · have : v ∈ stats := by
        simp only [pyIndex] at hv
        generalize (if t < 0 then t + (stats.length : Int) else t) = j at hv
        split at hv
        · simp at hv
        · split at hv
          · rename_i hx
            cases hv
            exact List.mem_of_getElem? hx
          · simp at hv
      have := hn v this
      omega

theorem bumpAll_nonneg {ts : List Int} : ∀ {stats out : List Int}, bumpAll ts stats = .ok out → (∀ x ∈ stats, 0 ≤ x) → ∀ x ∈ out, 0 ≤ x := by
  induction ts with
  | nil => intro stats out h hn; cases h; exact hn
  | cons t ts ih =>
    intro stats out h hn
    unfold bumpAll at h
    split at h
    · simp at h
    · rename_i st hst
      exact ih h (bump_nonneg hst hn)

theorem statsLoop_nonneg {s : Scheme} {lines : List Str} : ∀ {stats out : List Int} {n m : Nat}, statsLoop s lines stats n = .ok (out, m) →
    (∀ x ∈ stats, 0 ≤ x) → ∀ x ∈ out, 0 ≤ x := by
  induction lines with
  | nil => intro stats out n m h hn; cases h; exact hn
  | cons l ls ih =>
    intro stats out n m h hn
    unfold statsLoop at h
    split at h
    · simp at h
    · split at h
      · simp at h
      · rename_i st hst
        exact ih h (bumpAll_nonneg hst hn)

theorem bumpAll_length {ts : List Int} : ∀ {stats out : List Int}, bumpAll ts stats = .ok out → out.length = stats.length := by
  induction ts with
  | nil => intro stats out h; cases h; rfl
  | cons t ts ih =>
    intro stats out h
    unfold bumpAll at h
    split at h
    · simp at h
    · rename_i st hst
      rw [ih h]
      unfold bump at hst
      split at hst
      · simp at hst
      · cases hst; rw [List.length_set]

theorem statsLoop_length {s : Scheme} {lines : List Str} : ∀ {stats out : List Int} {n m : Nat}, statsLoop s lines stats n = .ok (out, m) →
    out.length = stats.length := by
  induction lines with
  | nil => intro stats out n m h; cases h; rfl
  | cons l ls ih =>
    intro stats out n m h
    unfold statsLoop at h
    split at h
    · simp at h
    · split at h
      · simp at h
      · rename_i st hst
        rw [ih h, bumpAll_length hst]

theorem toNat_sum {l : List Int} (h : ∀ x ∈ l, 0 ≤ x) : (((l.map Int.toNat).sum : Nat) : Int) = isum l := by
  rw [isum_eq_sum]
  induction l with
  | nil => simp
  | cons a l ih =>
    rw [List.map_cons, List.sum_cons, List.sum_cons, Nat.cast_add, ih fun x hx => h x (by simp [hx]),
      Int.toNat_of_nonneg (h a (by simp))]

theorem unevenness_emd {stats : List Int} (hn : ∀ x ∈ stats, 0 ≤ x) (hl : stats ≠ []) :
    emdSimple (stats.map fun (x : Int) => (x : ℚ)) 1 =
      .ok (if isum stats = 0 then none else some (unevenness (stats.map Int.toNat))) := by
  have hm : stats.map (fun (x : Int) => (x : ℚ)) = (stats.map Int.toNat).map fun x : ℕ => (x : ℚ) := by
    rw [List.map_map]
    apply List.map_congr_left
    intro x hx
    simp only [Function.comp]
    conv_lhs => rw [← Int.toNat_of_nonneg (hn x hx)]
    rw [Int.cast_natCast]
  have hk : stats.length ≠ 0 := fun h => hl (List.length_eq_zero_iff.1 h)
  simp only [emdSimple, zero_lt_one, if_true, List.length_map, hk, if_false, mul_one]
  rw [hm, natCast_sum_rat, ← toNat_sum hn]
  by_cases h0 : (stats.map Int.toNat).sum = 0
  · rw [if_pos (by exact_mod_cast h0), if_pos (by exact_mod_cast h0)]
  · rw [if_neg (by exact_mod_cast h0), if_neg (by exact_mod_cast h0), unevenness, List.map_map, List.length_map]
    rfl

/-- C59, C60 in binary64: the estimate that the code computes fails exactly as the exact one; if there are at most 2^26 types and 2^51 tokens then all counts agree,
the mean length is the nearest float, the imbalance is `nan` for the same texts, and otherwise it lies in [0, 1), differs from the exact one by at most
(n_types + 4) / 2^53 and is 0 exactly if the exact one is. -/
theorem C60_estimate_float {npSum : List ℚ → ℚ} (hS : ∀ l, RoundedSum rnd64 l (npSum l)) (s : Scheme) (lines : List Str) :
    (∀ e, estimate s lines = .error e ↔ estimateF64 npSum s lines = .error e) ∧
    ∀ q, estimate s lines = .ok q → q.nTypes ≤ 2 ^ 26 → q.nTokens ≤ 2 ^ 51 → ∃ q', estimateF64 npSum s lines = .ok q' ∧
      q'.nTypes = q.nTypes ∧ q'.nTokens = q.nTokens ∧ q'.unkCount = q.unkCount ∧ Nearest64 q.meanSeqLen q'.meanSeqLen ∧
      (q'.imbalance = none ↔ q.imbalance = none) ∧
      ∀ e d, q.imbalance = some e → q'.imbalance = some d → 0 ≤ d ∧ d < 1 ∧ |d - e| ≤ (q.nTypes + 4) / 2 ^ 53 ∧ (d = 0 ↔ e = 0) := by
  unfold estimate estimateF64
  cases hst : statsLoop s lines (List.replicate s.table.length 0) 0 with
  | error e => simp
  | ok r =>
    obtain ⟨stats, n⟩ := r
    have hn := statsLoop_nonneg hst (by intro x hx; rw [(List.mem_replicate.1 hx).2])
    have hlen := statsLoop_length hst
    rw [List.length_replicate] at hlen
    dsimp only
    by_cases hn0 : n = 0
    · simp [hn0]
    rw [if_neg hn0, if_neg hn0]
    cases hu : s.unkIdx with
    | error e => simp
    | ok u =>
      dsimp only
      cases hp : pyIndex stats u with
      | error e => simp
      | ok unk =>
        have hne : stats ≠ [] := by
          rintro rfl
          simp only [pyIndex] at hp
          split at hp <;> simp at hp
        have hk : stats.length ≠ 0 := fun h => hne (List.length_eq_zero_iff.1 h)
        dsimp only
        rw [unevenness_emd hn hne]
        have hF : ∃ v, emdF64 npSum (stats.map Int.toNat) = .ok v := by
          unfold emdF64
          dsimp only
          rw [List.length_map, if_neg hk]
          split <;> exact ⟨_, rfl⟩
        obtain ⟨v, hv⟩ := hF
        rw [hv]
        refine ⟨by simp, ?_⟩
        intro q hq h26 h51
        cases hq
        dsimp only at h26 h51 ⊢
        refine ⟨_, rfl, rfl, rfl, rfl, rnd64_nearest _, ?_⟩
        dsimp only
        by_cases h0 : isum stats = 0
        · have hz : (stats.map Int.toNat).sum = 0 := by
            have := toNat_sum hn
            omega
          have : v = none := by
            simp only [emdF64, List.length_map, hk, hz, if_false, if_true] at hv
            cases hv; rfl
          simp [h0, this]
        have hz : (stats.map Int.toNat).sum ≠ 0 := by
          have := toNat_sum hn
          omega
        obtain ⟨d, h1, h2, h3, h4, h5⟩ := C59_emd_float hS (stats := stats.map Int.toNat) (by rw [List.length_map]; omega) (by
          have := toNat_sum hn
          have : (((stats.map Int.toNat).sum : Nat) : Int) ≤ ((2 ^ 51 : Nat) : Int) := by rw [this]; exact_mod_cast h51
          exact_mod_cast this) hz
        rw [h1] at hv
        cases hv
        rw [if_neg h0]
        refine ⟨by simp, ?_⟩
        intro e d' he hd
        cases he
        cases hd
        rw [List.length_map, hlen] at h4
        refine ⟨h2, h3, h4, ?_⟩
        rw [h5]
        obtain ⟨_, _, e2, _⟩ := emd_bounds (l := (stats.map Int.toNat).map fun x : ℕ => (x : ℚ)) (by
          intro x hx
          obtain ⟨y, _, rfl⟩ := List.mem_map.1 hx
          exact Nat.cast_nonneg _) (by rw [natCast_sum_rat]; exact_mod_cast Nat.pos_of_ne_zero hz)
        have e3 : unevenness (stats.map Int.toNat) = 0 ↔
            ∀ x ∈ (stats.map Int.toNat).map fun x : ℕ => (x : ℚ), ∀ y ∈ (stats.map Int.toNat).map fun x : ℕ => (x : ℚ), x = y := by
          rw [← e2, unevenness, natCast_sum_rat, List.length_map (fun x : ℕ => (x : ℚ))]
          generalize stats.map Int.toNat = l
          rw [List.map_map]
          constructor
          · intro h
            exact (mul_eq_zero.1 h).resolve_left (by norm_num)
          · intro h
            exact mul_eq_zero.2 (Or.inr h)
        rw [e3]
        constructor
        · intro h x hx y hy
          obtain ⟨a, ha, rfl⟩ := List.mem_map.1 hx
          obtain ⟨b, hb, rfl⟩ := List.mem_map.1 hy
          rw [h a ha b hb]
        · intro h x hx y hy
          exact_mod_cast h x (List.mem_map.2 ⟨x, hx, rfl⟩) y (List.mem_map.2 ⟨y, hy, rfl⟩)

example : withScheme .word (exTable Level.word ["hello", "world"]) (fun s =>
    match estimateF64 sumFromRight s [lit " hello  there world", lit "", lit "<unk> x hello"] with
    | .error e => .error e
    | .ok q => .ok (q.nTypes, q.nTokens, q.unkCount, q.meanSeqLen, q.imbalance)) = .ok (8, 6, 3, 2, some (5 / 8)) := by decide +kernel

/-! ## Distance of two distributions -/

theorem rnd64_eq_zero {x : ℚ} : rnd64 x = 0 ↔ x = 0 := by
  constructor
  · intro h
    by_contra hx
    rcases lt_or_gt_of_ne hx with hx | hx
    · have := rnd64_nonneg (x := -x) (by linarith)
      rw [rnd64_neg, h] at this
      simp at this
    · have := rnd64_nonneg hx
      rw [h] at this
      exact lt_irrefl _ this
  · rintro rfl; exact rnd64_zero

/-- C59 in binary64: without validation the distance of two vectors of floats of the same length `k` is not negative, 0 exactly for equal vectors, the same when the
vectors are swapped, and half the exact distance up to a factor between (1 - 2^-53)^(k+2) and (1 + 2^-53)^(k+2); vectors of different lengths are refused. -/
theorem C59_earth_float {npSum : List ℚ → ℚ} (hS : ∀ l, RoundedSum rnd64 l (npSum l)) (p q : List ℚ) :
    (p.length ≠ q.length → earthF64 npSum p q = .error .assertion) ∧
    (p.length = q.length → ∃ d, earthF64 npSum p q = .ok d ∧ earthF64 npSum q p = .ok d ∧ 0 ≤ d ∧ (d = 0 ↔ p = q) ∧
      1 / 2 * ((p.zip q).map fun x => |x.1 - x.2|).sum * (1 - 1 / 2 ^ 53) ^ (p.length + 2) ≤ d ∧
      d ≤ 1 / 2 * ((p.zip q).map fun x => |x.1 - x.2|).sum * (1 + 1 / 2 ^ 53) ^ (p.length + 2)) := by
  refine ⟨fun h => by rw [earthF64, if_neg h], fun hl => ?_⟩
  have hsw : (q.zip p).map (fun x => |rnd64 (x.1 - x.2)|) = (p.zip q).map fun x => |rnd64 (x.1 - x.2)| := by
    rw [← List.zip_swap p q, List.map_map]
    apply List.map_congr_left
    rintro ⟨a, b⟩ _
    simp only [Function.comp, Prod.swap]
    rw [show b - a = -(a - b) by ring, rnd64_neg, abs_neg]
  set T := (p.zip q).map fun x => |rnd64 (x.1 - x.2)| with hT
  set E := ((p.zip q).map fun x => |x.1 - x.2|).sum with hE
  have hTn : ∀ t ∈ T, 0 ≤ t := by
    intro t ht
    obtain ⟨x, _, rfl⟩ := List.mem_map.1 ht
    exact abs_nonneg _
  have hTl : T.length = p.length := by rw [hT, List.length_map, List.length_zip, hl, min_self]
  have hT0 := List.sum_nonneg hTn
  obtain ⟨s1, s2⟩ := RoundedSum.bounds (hS T) hTn
  rw [hTl] at s1 s2
  have hU : (0 : ℚ) < 1 - 1 / 2 ^ 53 := by norm_num
  have hs0 : 0 ≤ npSum T := le_trans (mul_nonneg hT0 (pow_nonneg hU.le _)) s1
  obtain ⟨r1, r2⟩ := rnd64_rel (x := 1 / 2 * npSum T) (by positivity)
  have hTE : E * (1 - 1 / 2 ^ 53) ≤ T.sum ∧ T.sum ≤ E * (1 + 1 / 2 ^ 53) := by
    rw [hT, hE]
    clear hTn hTl hT0 s1 s2 hs0 r1 r2 hT hE hsw hl
    induction p.zip q with
    | nil => simp
    | cons a l ih =>
      simp only [List.map_cons, List.sum_cons]
      have h := rnd64_err (a.1 - a.2)
      have h1 := abs_sub_abs_le_abs_sub (rnd64 (a.1 - a.2)) (a.1 - a.2)
      have h2 := abs_sub_abs_le_abs_sub (a.1 - a.2) (rnd64 (a.1 - a.2))
      rw [abs_sub_comm (a.1 - a.2) (rnd64 (a.1 - a.2))] at h2
      constructor <;> linarith [ih.1, ih.2]
  refine ⟨rnd64 (1 / 2 * npSum T), ?_, ?_, ?_, ?_, ?_, ?_⟩
  · simp only [earthF64, absF_eq]; rw [if_pos hl, hsw]
  · simp only [earthF64, absF_eq]; rw [if_pos hl.symm]
  · exact le_trans (mul_nonneg (by positivity) hU.le) r1
  · rw [rnd64_eq_zero]
    constructor
    · intro h
      have hs : npSum T = 0 := by linarith
      have hTs : T.sum = 0 := by
        rw [hs] at s1
        by_contra hne
        have : 0 < T.sum := lt_of_le_of_ne hT0 (Ne.symm hne)
        have := mul_pos this (pow_pos hU p.length)
        linarith
      have hall : ∀ x ∈ p.zip q, x.1 = x.2 := by
        intro x hx
        have := all_zero_of_sum hTn hTs _ (List.mem_map.2 ⟨x, hx, rfl⟩)
        exact sub_eq_zero.1 (rnd64_eq_zero.1 (abs_eq_zero.1 this))
      clear hsw hT hE hTn hTl hT0 s1 s2 hs0 r1 r2 hTE h hs hTs
      clear T E
      induction p generalizing q with
      | nil => exact (List.length_eq_zero_iff.1 hl.symm).symm
      | cons a p ih => cases q with
        | nil => simp at hl
        | cons b q =>
          rw [ih q (by simpa using hl) fun x hx => hall x (by simp [hx])]
          rw [show a = b from hall (a, b) (by simp)]
    · rintro rfl
      have hTs : T.sum = 0 := by
        apply List.sum_eq_zero
        intro t ht
        obtain ⟨x, hx, rfl⟩ := List.mem_map.1 ht
        have : x.1 = x.2 := by
          clear hsw hTE hTn hTl hT0 s1 s2 hs0 r1 r2 ht hT hE hl
          induction p with
          | nil => simp at hx
          | cons a p ih =>
            rw [List.zip_cons_cons, List.mem_cons] at hx
            rcases hx with rfl | hx
            · rfl
            · exact ih hx
        rw [this, sub_self, rnd64_zero, abs_zero]
      rw [hTs, zero_mul] at s2
      rw [le_antisymm s2 hs0, mul_zero]
  · have w : 1 / 2 * (E * (1 - 1 / 2 ^ 53) * (1 - 1 / 2 ^ 53) ^ p.length) * (1 - 1 / 2 ^ 53) ≤ rnd64 (1 / 2 * npSum T) := by
      refine le_trans (mul_le_mul_of_nonneg_right ?_ hU.le) r1
      refine mul_le_mul_of_nonneg_left (le_trans ?_ s1) (by norm_num)
      exact mul_le_mul_of_nonneg_right hTE.1 (pow_nonneg hU.le _)
    refine le_trans (le_of_eq ?_) w
    rw [pow_add]; ring
  · have hV : (0 : ℚ) ≤ 1 + 1 / 2 ^ 53 := by norm_num
    have w : rnd64 (1 / 2 * npSum T) ≤ 1 / 2 * (E * (1 + 1 / 2 ^ 53) * (1 + 1 / 2 ^ 53) ^ p.length) * (1 + 1 / 2 ^ 53) := by
      refine le_trans r2 (mul_le_mul_of_nonneg_right ?_ hV)
      refine mul_le_mul_of_nonneg_left (le_trans s2 ?_) (by norm_num)
      exact mul_le_mul_of_nonneg_right hTE.2 (pow_nonneg hV _)
    refine le_trans w (le_of_eq ?_)
    rw [pow_add]; ring

example : ([1 / 2, 1 / 2, 0] : List ℚ).length = ([1 / 4, 1 / 2, 1 / 4] : List ℚ).length ∧
    earthF64 sumFromRight [1 / 2, 1 / 2, 0] [1 / 4, 1 / 2, 1 / 4] = .ok (1 / 4) := by decide +kernel
example : earthF64 sumFromRight [1] [1 / 4, 1 / 2, 1 / 4] = .error .assertion := by decide +kernel

end Verif
