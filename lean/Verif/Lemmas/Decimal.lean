import Verif.Model.PrText
import Verif.Spec.Decimal
import Verif.Lemmas.Str
import Mathlib.Tactic.Ring
import Mathlib.Tactic.FieldSimp
import Mathlib.Tactic.Linarith
import Mathlib.Tactic.NormNum
import Mathlib.Tactic.Positivity
/-! # Lemmas about decimal numerals -/

namespace Verif
open Spec

/-- value of a text of digits -/
def dval (s : Str) : Nat := s.foldl (fun a c => 10 * a + (c - 48)) 0

/-- only digits -/
def Digs (s : Str) : Prop := ∀ c ∈ s, 48 ≤ c ∧ c ≤ 57

theorem dval_foldl (s : Str) : ∀ a : Nat, s.foldl (fun a c => 10 * a + (c - 48)) a = a * 10 ^ s.length + dval s := by
  induction s with
  | nil => intro a; simp [dval]
  | cons c s ih =>
    intro a
    have h0 := ih (10 * 0 + (c - 48))
    rw [dval, List.foldl_cons, List.foldl_cons, ih, h0, List.length_cons, pow_succ]
    ring

theorem dval_append (s t : Str) : dval (s ++ t) = dval s * 10 ^ t.length + dval t := by
  rw [dval, List.foldl_append, dval_foldl]; rfl

theorem dval_zeros (k : Nat) : dval (List.replicate k 48) = 0 := by
  induction k with
  | zero => rfl
  | succ k ih =>
    rw [List.replicate_succ, show (48 :: List.replicate k 48 : Str) = [48] ++ List.replicate k 48 from rfl, dval_append, ih]
    simp [dval]

theorem numeral_digs {s : Str} (hn : s ≠ []) (h : Digs s) : numeral s = some (dval s) := by
  rw [numeral, if_pos ⟨hn, h⟩]; rfl

theorem dval_decAux : ∀ (k n : Nat), n < k → dval (decAux k n) = n
  | 0, _, h => absurd h (by omega)
  | k + 1, n, h => by
    rw [decAux]
    split
    · simp [dval]
    · rw [dval_append, dval_decAux k (n / 10) (by omega)]
      simp [dval]
      omega

theorem dval_natStr (n : Nat) : dval (natStr n) = n := dval_decAux _ _ (by omega)

theorem digs_natStr (n : Nat) : Digs (natStr n) := natStr_digits n

theorem decAux_length : ∀ (k n : Nat) (d : Nat), n < k → 10 ^ d ≤ n → n < 10 ^ (d + 1) → (decAux k n).length = d + 1
  | 0, _, _, h, _, _ => absurd h (by omega)
  | k + 1, n, 0, h, h1, h2 => by rw [decAux, if_pos (by omega)]; rfl
  | k + 1, n, d + 1, h, h1, h2 => by
    have e : (10 : Nat) ^ (d + 1) = 10 ^ d * 10 := pow_succ _ _
    have e2 : (10 : Nat) ^ (d + 1 + 1) = 10 ^ (d + 1) * 10 := pow_succ _ _
    have hp : 0 < (10 : Nat) ^ d := by positivity
    rw [decAux, if_neg (by omega), List.length_append, decAux_length k (n / 10) d (by omega) (by omega) (by omega)]
    rfl

theorem natStr_length {n d : Nat} (h1 : 10 ^ d ≤ n) (h2 : n < 10 ^ (d + 1)) : (natStr n).length = d + 1 := decAux_length _ _ _ (by omega) h1 h2

/-- value of the digits after the point -/
def fval (s : Str) : ℚ := dval s / 10 ^ s.length

theorem fval_zeros (s : Str) (k : Nat) : fval (s ++ List.replicate k 48) = fval s := by
  rw [fval, fval, dval_append, dval_zeros, List.length_append, List.length_replicate, add_zero, pow_add]
  push_cast
  rw [mul_div_mul_right _ _ (by positivity)]

theorem rstrip_zeros (s : Str) : ∃ k, s = rstripP (· == 48) s ++ List.replicate k 48 := by
  refine ⟨(s.reverse.takeWhile (· == 48)).length, ?_⟩
  have h : s.reverse.takeWhile (· == 48) = List.replicate (s.reverse.takeWhile (· == 48)).length 48 := by
    rw [List.eq_replicate_iff]
    exact ⟨rfl, fun b hb => by have := List.all_eq_true.1 (List.all_takeWhile (p := (· == 48)) (l := s.reverse)) b hb; simpa using this⟩
  rw [← List.reverse_replicate, ← h, rstripP, ← List.reverse_append, List.takeWhile_append_dropWhile, List.reverse_reverse]

theorem fval_rstrip (s : Str) : fval (rstripP (· == 48) s) = fval s := by
  obtain ⟨k, h⟩ := rstrip_zeros s
  conv_rhs => rw [h]
  rw [fval_zeros]

theorem digs_rstrip {s : Str} (h : Digs s) : Digs (rstripP (· == 48) s) := by
  obtain ⟨k, e⟩ := rstrip_zeros s
  exact fun c hc => h c (by rw [e]; exact List.mem_append_left _ hc)

theorem takeWhile_digs {s : Str} (h : Digs s) {p : Nat} (hp : p < 48 ∨ 57 < p) (r : Str) :
    (s ++ p :: r).takeWhile (· ≠ p) = s ∧ (s ++ p :: r).dropWhile (· ≠ p) = p :: r := by
  have hs : ∀ c ∈ s, decide (c ≠ p) = true := fun c hc => by have := h c hc; simp; omega
  constructor
  · rw [List.takeWhile_append_of_pos hs]; simp
  · rw [List.dropWhile_append_of_pos hs]; simp

theorem takeWhile_all {s : Str} {p : Nat} (h : p ∉ s) : s.takeWhile (· ≠ p) = s ∧ s.dropWhile (· ≠ p) = [] := by
  have hs : ∀ c ∈ s, decide (c ≠ p) = true := fun c hc => by simp; rintro rfl; exact h hc
  constructor
  · have := List.takeWhile_append_of_pos (l₂ := []) hs
    simpa using this
  · have := List.dropWhile_append_of_pos (l₂ := []) hs
    simpa using this

theorem readPoint_dotted {a b : Str} (ha : a ≠ []) (h1 : Digs a) (h2 : Digs b) : readPoint (dotted a b) = some (dval a + fval b) := by
  rw [← fval_rstrip b]
  have h2' := digs_rstrip h2
  rw [dotted]
  generalize rstripP (· == 48) b = f at h2'
  by_cases hf : f = []
  · subst hf
    rw [if_pos rfl, readPoint, (takeWhile_all (fun h => by have := h1 46 h; omega)).2, numeral_digs ha h1]
    simp [fval, dval]
  · rw [if_neg hf, readPoint, (takeWhile_digs h1 (Or.inl (by omega)) f).1, (takeWhile_digs h1 (Or.inl (by omega)) f).2]
    simp only [numeral_digs ha h1, numeral_digs hf h2']
    rfl

theorem dotted_chars {a b : Str} (h1 : Digs a) (h2 : Digs b) : ∀ c ∈ dotted a b, 46 ≤ c ∧ c ≤ 57 := by
  intro c hc
  rw [dotted] at hc
  split at hc
  · have := h1 c hc; omega
  · rcases List.mem_append.1 hc with h | h
    · have := h1 c h; omega
    · rcases List.mem_cons.1 h with rfl | h
      · omega
      · have := digs_rstrip h2 c h; omega

theorem readDecimal_dotted {a b : Str} (ha : a ≠ []) (h1 : Digs a) (h2 : Digs b) : readDecimal (dotted a b) = some (dval a + fval b) := by
  have h : 101 ∉ dotted a b := fun h => by have := dotted_chars h1 h2 _ h; omega
  rw [readDecimal, (takeWhile_all h).1, (takeWhile_all h).2, readPoint_dotted ha h1 h2]
  simp [readExponent]

theorem readDecimal_exp {a b d : Str} {neg : Bool} (ha : a ≠ []) (h1 : Digs a) (h2 : Digs b) (hd : d ≠ []) (h3 : Digs d) :
    readDecimal (dotted a b ++ 101 :: (if neg then 45 else 43) :: d) = some ((dval a + fval b) * 10 ^ (if neg then -(dval d : ℤ) else dval d)) := by
  have h : ∀ c ∈ dotted a b, decide (c ≠ 101) = true := fun c hc => by have := dotted_chars h1 h2 _ hc; simp; omega
  rw [readDecimal, List.takeWhile_append_of_pos h, List.dropWhile_append_of_pos h]
  simp only [ne_eq, decide_not, decide_true, Bool.not_true, List.takeWhile_cons_of_neg, Bool.false_eq_true, not_false_eq_true, List.dropWhile_cons_of_neg, List.append_nil,
    readPoint_dotted ha h1 h2]
  cases neg <;> simp [readExponent, numeral_digs hd h3]

theorem roundEven_nearest (y : ℚ) (k : ℤ) : |(roundEven y : ℚ) - y| ≤ |(k : ℚ) - y| := by
  have h1 := Int.floor_le y
  have h2 := Int.lt_floor_add_one y
  unfold roundEven
  dsimp only
  generalize ⌊y⌋ = f at h1 h2
  have hk : (k : ℚ) ≤ f ∨ (f : ℚ) + 1 ≤ k := by
    rcases le_or_gt k f with h | h
    · left; exact_mod_cast h
    · right; exact_mod_cast h
  have key : ∀ z : ℚ, (z = f ∧ y - f ≤ 1 / 2 ∨ z = f + 1 ∧ 1 / 2 ≤ y - f) → |z - y| ≤ |(k : ℚ) - y| := by
    rintro z (⟨rfl, h⟩ | ⟨rfl, h⟩)
    · rw [abs_of_nonpos (by linarith)]
      rcases hk with hk | hk
      · rw [abs_of_nonpos (by linarith)]; linarith
      · rw [abs_of_nonneg (by linarith)]; linarith
    · rw [abs_of_nonneg (by linarith)]
      rcases hk with hk | hk
      · rw [abs_of_nonpos (by linarith)]; linarith
      · rw [abs_of_nonneg (by linarith)]; linarith
  apply key
  by_cases c1 : y - f < 1 / 2
  · rw [if_pos c1]; exact Or.inl ⟨rfl, c1.le⟩
  · rw [if_neg c1]
    by_cases c2 : 1 / 2 < y - f
    · rw [if_pos c2]; exact Or.inr ⟨by push_cast; rfl, c2.le⟩
    · rw [if_neg c2]
      have e : y - f = 1 / 2 := le_antisymm (not_lt.1 c2) (not_lt.1 c1)
      split
      · exact Or.inl ⟨rfl, e.le⟩
      · exact Or.inr ⟨by push_cast; rfl, e.ge⟩

theorem roundEven_mono_nat {y : ℚ} {a b : ℕ} (h1 : (a : ℚ) ≤ y) (h2 : y ≤ b) : (a : ℤ) ≤ roundEven y ∧ roundEven y ≤ b := by
  have ha := roundEven_nearest y a
  have hb := roundEven_nearest y b
  push_cast at ha hb
  rw [abs_of_nonpos (by linarith : (a : ℚ) - y ≤ 0)] at ha
  rw [abs_of_nonneg (by linarith : (0 : ℚ) ≤ (b : ℚ) - y)] at hb
  have h3 := (abs_le.1 ha).1
  have h4 := (abs_le.1 hb).2
  constructor
  · have : (a : ℚ) ≤ roundEven y := by linarith
    exact_mod_cast this
  · have : (roundEven y : ℚ) ≤ b := by linarith
    exact_mod_cast this

/-- the digits and the exponent that the format finds -/
theorem gDigits {x : ℚ} (hx : 0 < x) : ∃ (m : ℕ) (e : ℤ), 10 ^ 5 ≤ m ∧ m < 10 ^ 6 ∧
    (if (roundEven (x / 10 ^ (Int.log 10 x - 5))).toNat = 1000000 then 100000 else (roundEven (x / 10 ^ (Int.log 10 x - 5))).toNat) = m ∧
    (if (roundEven (x / 10 ^ (Int.log 10 x - 5))).toNat = 1000000 then Int.log 10 x + 1 else Int.log 10 x) = e ∧
    NearestSix x (m * 10 ^ (e - 5)) := by
  have l1 := Int.zpow_log_le_self (b := 10) (r := x) (by norm_num) hx
  have l2 := Int.lt_zpow_succ_log_self (b := 10) (by norm_num) x
  generalize Int.log 10 x = e0 at l1 l2
  push_cast at l1 l2
  have p10 : ∀ k : ℤ, (0 : ℚ) < 10 ^ k := fun k => zpow_pos (by norm_num) k
  have n10 : (10 : ℚ) ≠ 0 := by norm_num
  obtain ⟨y, hy⟩ : ∃ y, y = x / (10 : ℚ) ^ (e0 - 5) := ⟨_, rfl⟩
  have hxy : x = y * 10 ^ (e0 - 5) := by rw [hy]; field_simp
  have s5 : (10 : ℚ) ^ e0 = 100000 * 10 ^ (e0 - 5) := by
    have : e0 = 5 + (e0 - 5) := by ring
    conv_lhs => rw [this, zpow_add₀ n10]
    norm_num
  have s6 : (10 : ℚ) ^ (e0 + 1) = 1000000 * 10 ^ (e0 - 5) := by
    have : e0 + 1 = 6 + (e0 - 5) := by ring
    conv_lhs => rw [this, zpow_add₀ n10]
    norm_num
  have hy1 : ((100000 : ℕ) : ℚ) ≤ y := by
    rw [s5, hxy] at l1
    have := le_of_mul_le_mul_right l1 (p10 _)
    push_cast; exact this
  have hy2 : y ≤ ((1000000 : ℕ) : ℚ) := by
    rw [s6, hxy] at l2
    have := (lt_of_mul_lt_mul_right l2 (p10 _).le).le
    push_cast; exact this
  have hr := roundEven_mono_nat hy1 hy2
  obtain ⟨m0, hm0⟩ : ∃ m0, m0 = (roundEven y).toNat := ⟨_, rfl⟩
  have hmr : (m0 : ℤ) = roundEven y := by omega
  have hmq : (m0 : ℚ) = ((roundEven y : ℤ) : ℚ) := by rw [← hmr]; push_cast; rfl
  have near : ∀ w, SixDigits w → |(m0 : ℚ) * 10 ^ (e0 - 5) - x| ≤ |w - x| := by
    rintro w ⟨M, K, hM, rfl⟩
    rw [hxy, ← sub_mul, abs_mul, abs_of_pos (p10 (e0 - 5)), hmq]
    rcases le_or_gt (e0 - 5) K with hK | hK
    · obtain ⟨j, hj⟩ : ∃ j : ℕ, K = j + (e0 - 5) := ⟨(K - (e0 - 5)).toNat, by omega⟩
      have := roundEven_nearest y ((M : ℤ) * 10 ^ j)
      rw [hj, zpow_add₀ n10, zpow_natCast, ← mul_assoc, ← sub_mul, abs_mul, abs_of_pos (p10 (e0 - 5))]
      apply mul_le_mul_of_nonneg_right _ (p10 _).le
      push_cast at this
      exact this
    · have hw : (M : ℚ) * 10 ^ K ≤ 100000 * 10 ^ (e0 - 5) := by
        rw [← s5]
        have h6 : (10 : ℚ) ^ (6 + K) ≤ 10 ^ e0 := zpow_le_zpow_right₀ (by norm_num) (by omega)
        rw [zpow_add₀ n10] at h6
        have h7 : (M : ℚ) * 10 ^ K ≤ 10 ^ (6 : ℤ) * 10 ^ K := by
          apply mul_le_mul_of_nonneg_right _ (p10 _).le
          have : (M : ℚ) ≤ 10 ^ 6 := by exact_mod_cast hM.le
          exact_mod_cast this
        linarith
      have h5 := roundEven_nearest y 100000
      push_cast at h5 hy1
      rw [abs_of_nonpos (by linarith : (100000 : ℚ) - y ≤ 0)] at h5
      have h8 := mul_le_mul_of_nonneg_right h5 (p10 (e0 - 5)).le
      have h9 : (M : ℚ) * 10 ^ K - y * 10 ^ (e0 - 5) ≤ -((y - 100000) * 10 ^ (e0 - 5)) := by linarith
      have h10 : 0 ≤ (y - 100000) * (10 : ℚ) ^ (e0 - 5) := mul_nonneg (by linarith) (p10 _).le
      rw [abs_of_nonpos (by linarith : (M : ℚ) * 10 ^ K - y * 10 ^ (e0 - 5) ≤ 0)]
      linarith
  rw [← hy, ← hm0]
  by_cases hc : m0 = 1000000
  · refine ⟨100000, e0 + 1, by norm_num, by norm_num, if_pos hc, if_pos hc, ⟨100000, e0 + 1 - 5, by norm_num, rfl⟩, ?_⟩
    have e : ((100000 : ℕ) : ℚ) * 10 ^ (e0 + 1 - 5) = (m0 : ℚ) * 10 ^ (e0 - 5) := by
      have : e0 + 1 - 5 = 1 + (e0 - 5) := by ring
      rw [this, zpow_add₀ n10, hc]; push_cast; ring
    rw [e]
    exact near
  · refine ⟨m0, e0, by omega, by norm_num; omega, if_neg hc, if_neg hc, ⟨m0, e0 - 5, by norm_num; omega, rfl⟩, near⟩

/-- characters of a number in the table -/
def isGChar (c : Nat) : Prop := 43 ≤ c ∧ c ≤ 101 ∧ c ≠ 44

theorem fmtG_spec {x : ℚ} (hx : 0 ≤ x) : ∃ v, readDecimal (fmtG x) = some v ∧ NearestSix x v ∧ (∀ c ∈ fmtG x, isGChar c) := by
  by_cases h0 : x = 0
  · subst h0
    refine ⟨0, by decide +kernel, ⟨⟨0, 0, by norm_num, by norm_num⟩, fun w _ => by simp⟩, ?_⟩
    rw [show fmtG 0 = [48] from by decide +kernel]
    intro c hc
    rw [List.mem_singleton] at hc
    subst hc
    exact ⟨by omega, by omega, by omega⟩
  obtain ⟨m, e, hm1, hm2, hme1, hme2, hn⟩ := gDigits (lt_of_le_of_ne hx (Ne.symm h0))
  refine ⟨_, ?_, hn, ?_⟩
  all_goals
    rw [fmtG, if_neg h0]
    dsimp only
    rw [hme1, hme2]
    have hlen : (natStr m).length = 6 := natStr_length hm1 hm2
    have hd := digs_natStr m
    have hsplit : ∀ k, k ≤ 6 → dval ((natStr m).take k) + fval ((natStr m).drop k) = (m : ℚ) / 10 ^ (6 - k) := by
      intro k hk
      have := dval_append ((natStr m).take k) ((natStr m).drop k)
      rw [List.take_append_drop, dval_natStr, List.length_drop, hlen] at this
      rw [fval, List.length_drop, hlen]
      conv_rhs => rw [this]
      push_cast
      rw [add_div, mul_div_cancel_right₀ _ (by positivity)]
    have htake : ∀ k, Digs ((natStr m).take k) := fun k c hc => hd c (List.mem_of_mem_take hc)
    have hdrop : ∀ k, Digs ((natStr m).drop k) := fun k c hc => hd c (List.mem_of_mem_drop hc)
    have hne : ∀ k, 0 < k → (natStr m).take k ≠ [] := by
      intro k hk he
      have := congrArg List.length he
      rw [List.length_take, hlen, List.length_nil] at this
      omega
    have hz : Digs (List.replicate (-e - 1).toNat 48 ++ natStr m) := by
      intro c hc
      rcases List.mem_append.1 hc with h | h
      · rw [List.mem_replicate] at h; omega
      · exact hd c h
    have h48 : Digs [48] := fun c hc => by rw [List.mem_singleton] at hc; omega
    have hex : Digs ((if e.natAbs < 10 then [48] else []) ++ natStr e.natAbs) := by
      intro c hc
      rcases List.mem_append.1 hc with h | h
      · split at h
        · rw [List.mem_singleton] at h; omega
        · cases h
      · exact digs_natStr _ c h
  · by_cases c1 : -4 ≤ e ∧ e < 6
    · rw [if_pos c1]
      by_cases c2 : 0 ≤ e
      · rw [if_pos c2, readDecimal_dotted (hne _ (by omega)) (htake _) (hdrop _), hsplit _ (by omega)]
        have e1 : e - 5 = -((6 - (e + 1).toNat : ℕ) : ℤ) := by omega
        rw [e1, zpow_neg, zpow_natCast, div_eq_mul_inv]
      · rw [if_neg c2, readDecimal_dotted (by simp) h48 hz, fval, dval_append, dval_zeros, dval_natStr, List.length_append, List.length_replicate, hlen]
        have e1 : e - 5 = -(((-e - 1).toNat + 6 : ℕ) : ℤ) := by omega
        rw [e1, zpow_neg, zpow_natCast, ← div_eq_mul_inv]
        simp [dval]
    · rw [if_neg c1]
      have hdv : dval ((if e.natAbs < 10 then [48] else []) ++ natStr e.natAbs) = e.natAbs := by
        rw [dval_append, dval_natStr]
        split <;> simp [dval]
      have hne2 : (if e.natAbs < 10 then [48] else []) ++ natStr e.natAbs ≠ [] := by
        simp [natStr_ne_nil]
      have := readDecimal_exp (neg := decide (e < 0)) (hne 1 (by omega)) (htake 1) (hdrop 1) hne2 hex
      simp only [decide_eq_true_eq, hdv, hsplit 1 (by omega)] at this
      simp only [List.cons_append, List.append_assoc]
      rw [this]
      congr 1
      have e1 : (if e < 0 then -(e.natAbs : ℤ) else (e.natAbs : ℤ)) = e := by split <;> omega
      have e2 : e - 5 = e + (-5) := by ring
      rw [e1, e2, zpow_add₀ (by norm_num)]
      norm_num
      ring
  · intro c hc
    have hdot : ∀ {a b : Str}, Digs a → Digs b → c ∈ dotted a b → isGChar c := fun h1 h2 h => by
      have := dotted_chars h1 h2 c h
      exact ⟨by omega, by omega, by omega⟩
    split at hc
    · split at hc
      · exact hdot (htake _) (hdrop _) hc
      · exact hdot h48 hz hc
    · simp only [List.cons_append, List.append_assoc, List.mem_append, List.mem_cons] at hc
      rcases hc with h | rfl | rfl | h | h
      · exact hdot (htake _) (hdrop _) h
      · exact ⟨by omega, by omega, by omega⟩
      · split <;> exact ⟨by omega, by omega, by omega⟩
      · have := hex c (List.mem_append_left _ h); exact ⟨by omega, by omega, by omega⟩
      · have := hex c (List.mem_append_right _ h); exact ⟨by omega, by omega, by omega⟩

end Verif
