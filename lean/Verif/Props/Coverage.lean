import Verif.Props.Learn
import Verif.Lemmas.Nearest
/-!
# Property C17 in binary64: the coverage filter up to rounding errors
-/

namespace Verif
open Spec

theorem roundQ_val (p : Nat) {q : Nat} (hq : 0 < q) : (roundQ p q).val = rnd64 ((p : ℚ) / q) := by
  rcases Nat.eq_zero_or_pos p with rfl | hp
  · rw [roundQ, if_pos rfl]
    simp [Dy.val_eq, rnd64_zero]
  · have hx : (0 : ℚ) < (p : ℚ) / q := by
      have h1 : (0 : ℚ) < p := by exact_mod_cast hp
      have h2 : (0 : ℚ) < q := by exact_mod_cast hq
      positivity
    obtain ⟨e, h1, h2, h3⟩ := roundQ_spec hp hq
    obtain ⟨e', h1', h2', h3'⟩ := rnd64_pos hx
    have : e = e' := le_antisymm (exp_lt_of (le_refl _) h1 h2') (exp_lt_of (le_refl _) h1' h2)
    subst this
    rw [h3, h3']

theorem Dy.frac_pos (d : Dy) : 0 < d.frac.2 := by
  unfold Dy.frac; split <;> simp

theorem Dy.add_val (a b : Dy) : (a.add b).val = rnd64 (a.val + b.val) := by
  have h1 := a.frac_pos
  have h2 := b.frac_pos
  have : a.add b = roundQ (a.frac.1 * b.frac.2 + b.frac.1 * a.frac.2) (a.frac.2 * b.frac.2) := rfl
  rw [this, roundQ_val _ (Nat.mul_pos h1 h2)]
  congr 1
  have h1' : (a.frac.2 : ℚ) ≠ 0 := by exact_mod_cast h1.ne'
  have h2' : (b.frac.2 : ℚ) ≠ 0 := by exact_mod_cast h2.ne'
  unfold Dy.val
  push_cast
  field_simp

theorem Dy.ge_iff (a b : Dy) : a.ge b = true ↔ b.val ≤ a.val := by
  have h1 : (0 : ℚ) < a.frac.2 := by exact_mod_cast a.frac_pos
  have h2 : (0 : ℚ) < b.frac.2 := by exact_mod_cast b.frac_pos
  have : a.ge b = decide (b.frac.1 * a.frac.2 ≤ a.frac.1 * b.frac.2) := rfl
  rw [this, decide_eq_true_iff]
  unfold Dy.val
  rw [div_le_div_iff₀ h2 h1]
  exact_mod_cast Iff.rfl

/-- `accF64.addRatio` written out -/
def addF64 (tot : Int) (c : Dy) (p : Str × Int) : Dy := c.add (roundQ p.2.toNat tot.toNat)

/-- error of the accumulated quotients -/
theorem accF64_err {tot : Int} (htot : 0 < tot) (l : List (Str × Int)) (hl : ∀ p ∈ l, 1 ≤ p.2) : isum (l.map (·.2)) ≤ tot → l.length ≤ 2 ^ 50 →
    |(l.foldl (addF64 tot) ⟨0, 0⟩).val - (isum (l.map (·.2)) : ℚ) / tot| ≤ l.length / 2 ^ 51 := by
  induction l using List.reverseRecOn with
  | nil =>
    intro _ _
    simp [isum, Dy.val_eq]
  | append_singleton l p ih =>
    intro hs hn
    have hp := hl p (by simp)
    have hsum : isum ((l ++ [p]).map (·.2)) = isum (l.map (·.2)) + p.2 := by
      rw [List.map_append, isum_append]; simp [isum]
    rw [hsum] at hs ⊢
    rw [List.length_append, List.length_singleton] at hn ⊢
    have h0 : 0 ≤ isum (l.map (·.2)) := isum_nonneg (by
      intro x hx
      obtain ⟨q, hq, rfl⟩ := List.mem_map.1 hx
      have := hl q (by simp [hq])
      omega)
    have ih := ih (fun q hq => hl q (by simp [hq])) (by omega) (by omega)
    rw [List.foldl_append, List.foldl_cons, List.foldl_nil]
    generalize (l.foldl (addF64 tot) ⟨0, 0⟩) = c at ih ⊢
    have hstep : (addF64 tot c p).val = rnd64 (c.val + rnd64 ((p.2 : ℚ) / tot)) := by
      rw [addF64, Dy.add_val, roundQ_val _ (by omega)]
      have e1 : ((p.2.toNat : ℕ) : ℚ) = (p.2 : ℚ) := by
        rw [← Int.cast_natCast, Int.toNat_of_nonneg (by omega)]
      have e2 : ((tot.toNat : ℕ) : ℚ) = (tot : ℚ) := by
        rw [← Int.cast_natCast, Int.toNat_of_nonneg (by omega)]
      rw [e1, e2]
    rw [hstep]
    have htq : (0 : ℚ) < tot := by exact_mod_cast htot
    have hm0 : (0 : ℚ) ≤ (isum (l.map (·.2)) : ℚ) / tot := by
      have : (0 : ℚ) ≤ (isum (l.map (·.2)) : ℚ) := by exact_mod_cast h0
      positivity
    have hr0 : (0 : ℚ) < (p.2 : ℚ) / tot := by
      have : (0 : ℚ) < (p.2 : ℚ) := by exact_mod_cast (by omega : 0 < p.2)
      positivity
    have hmr : (isum (l.map (·.2)) : ℚ) / tot + (p.2 : ℚ) / tot ≤ 1 := by
      rw [← add_div, div_le_one htq]; exact_mod_cast hs
    have hsplit : ((isum (l.map (·.2)) + p.2 : ℤ) : ℚ) / tot = (isum (l.map (·.2)) : ℚ) / tot + (p.2 : ℚ) / tot := by
      push_cast; rw [add_div]
    rw [hsplit]
    generalize (isum (l.map (·.2)) : ℚ) / tot = m at *
    generalize (p.2 : ℚ) / tot = r at *
    have hn' : (l.length : ℚ) + 1 ≤ 2 ^ 50 := by exact_mod_cast hn
    have e1 := rnd64_err r
    rw [abs_of_pos hr0] at e1
    generalize rnd64 r = r' at *
    have e2 := rnd64_err (c.val + r')
    generalize rnd64 (c.val + r') = c' at *
    generalize c.val = cv at *
    rw [abs_le] at ih e1
    have hb : |cv + r'| ≤ 2 := by
      rw [abs_le]
      constructor <;> linarith
    have e3 : |c' - (cv + r')| ≤ 2 / 2 ^ 53 := le_trans e2 (div_le_div_of_nonneg_right hb (by positivity))
    rw [abs_le] at e3 ⊢
    push_cast
    constructor <;> linarith

/-- C17 in binary64, up to rounding: the types kept are a prefix in non-increasing order of frequency; their share of the total is at least
`coverage - n / 2^51`, and no shorter prefix has a share of `coverage + n / 2^51` or more, `n` being the number of types.  Missing: the
exact threshold, see `C17_float_refuted`. -/
theorem C17_float_partial {types : Dict Str Int} (hnd : (Dict.keys types).Nodup) (hpos : ∀ p ∈ types, 1 ≤ p.2) (hne : types ≠ [])
    {cov : Dy} (hv : accF64.valid cov = true) (hn : types.length ≤ 2 ^ 50) :
    ∃ kept rest, filterCoverage accF64 types cov = .ok (kept, total (rest.map (·.2))) ∧
      (kept ++ rest).Perm types ∧ (kept ++ rest).Pairwise (fun a b => b.2 ≤ a.2) ∧
      cov.val - types.length / 2 ^ 51 ≤ (total (kept.map (·.2)) : ℚ) / total (types.map (·.2)) ∧
      ∀ j, 0 < j → j < kept.length → (total ((kept.take j).map (·.2)) : ℚ) / total (types.map (·.2)) < cov.val + types.length / 2 ^ 51 := by
  have htot : 0 < isum (Dict.values types) := by
    cases types with
    | nil => exact absurd rfl hne
    | cons p l =>
      have h1 := hpos p (by simp)
      have h2 : 0 ≤ isum (Dict.values l) := isum_nonneg (by
        intro x hx
        obtain ⟨q, hq, rfl⟩ := List.mem_map.1 hx
        have := hpos q (by simp [hq])
        omega)
      simp only [Dict.values, List.map_cons, isum, List.foldr_cons] at h2 ⊢
      omega
  obtain ⟨k, hk, hk0, h3, h4, h5⟩ := filterCoverage_prefix accF64 hnd (fun _ => by omega) hv
  have hlen := (sortByFreq_perm types).length_eq
  have htt : total (types.map (·.2)) = isum (Dict.values types) := by rw [total_eq]; rfl
  have hsp : ∀ p ∈ sortByFreq types, 1 ≤ p.2 := fun p hp => hpos p ((sortByFreq_perm types).subset hp)
  have hsum : isum ((sortByFreq types).map (·.2)) = isum (Dict.values types) := isum_perm ((sortByFreq_perm types).map _)
  have herr : ∀ j, |(((sortByFreq types).take j).foldl (addF64 (isum (Dict.values types))) ⟨0, 0⟩).val -
      (isum (((sortByFreq types).take j).map (·.2)) : ℚ) / isum (Dict.values types)| ≤ types.length / 2 ^ 51 := by
    intro j
    have hl : ((sortByFreq types).take j).length ≤ types.length := by rw [List.length_take]; omega
    refine le_trans (accF64_err htot _ (fun p hp => hsp p (List.mem_of_mem_take hp)) ?_ (le_trans hl hn)) ?_
    · rw [← hsum]
      conv_rhs => rw [← List.take_append_drop j (sortByFreq types), List.map_append, isum_append]
      have : 0 ≤ isum (((sortByFreq types).drop j).map (·.2)) := isum_nonneg (by
        intro x hx
        obtain ⟨q, hq, rfl⟩ := List.mem_map.1 hx
        have := hsp q (List.mem_of_mem_drop hq)
        omega)
      omega
    · have : (((sortByFreq types).take j).length : ℚ) ≤ types.length := by exact_mod_cast hl
      exact div_le_div_of_nonneg_right this (by positivity)
  refine ⟨_, _, by rw [h3, total_eq], ?_, ?_, ?_, ?_⟩
  · rw [List.take_append_drop]; exact sortByFreq_perm _
  · rw [List.take_append_drop]; exact sortByFreq_sorted _
  · rw [htt, total_eq]
    by_cases hkl : k < types.length
    · have h6 := (Dy.ge_iff (((sortByFreq types).take k).foldl (addF64 (isum (Dict.values types))) ⟨0, 0⟩) cov).1 (h5 hkl)
      have h7 := herr k
      rw [abs_le] at h7
      linarith
    · rw [List.take_of_length_le (by omega), hsum]
      have h8 : cov.val ≤ 1 := by
        have : accF64.valid cov = (decide (0 < cov.m) && Dy.ge ⟨1, 0⟩ cov) := rfl
        rw [this, Bool.and_eq_true] at hv
        have := (Dy.ge_iff _ _).1 hv.2
        rw [Dy.val_eq 1 0] at this
        simpa using this
      have h9 : (isum (Dict.values types) : ℚ) / isum (Dict.values types) = 1 := div_self (by exact_mod_cast htot.ne')
      rw [h9]
      have : (0 : ℚ) ≤ types.length / 2 ^ 51 := by positivity
      linarith
  · intro j hj0 hj
    rw [List.length_take] at hj
    rw [List.take_take, Nat.min_eq_left (by omega), htt, total_eq]
    have h6 := h4 j hj0 (by omega)
    have h6 : Dy.ge (((sortByFreq types).take j).foldl (addF64 (isum (Dict.values types))) ⟨0, 0⟩) cov = false := h6
    have h7 := fun h => (Bool.eq_false_iff.1 h6) ((Dy.ge_iff (((sortByFreq types).take j).foldl (addF64 (isum (Dict.values types))) ⟨0, 0⟩) cov).2 h)
    have h8 := herr j
    rw [abs_le] at h8
    linarith [not_le.1 h7]

/-- C17 in binary64 with coverage 1: nothing is cut, unless the number of types times the total count reaches 2^51. -/
theorem C17_full_partial {types : Dict Str Int} (hnd : (Dict.keys types).Nodup) (hpos : ∀ p ∈ types, 1 ≤ p.2)
    {cov : Dy} (hv : accF64.valid cov = true) (hc : cov.val = 1) (hn : types.length * total (types.map (·.2)) < 2 ^ 51) :
    ∃ kept, filterCoverage accF64 types cov = .ok (kept, 0) ∧ kept.Perm types := by
  by_cases hne : types = []
  · subst hne
    obtain ⟨kept, rest, h1, h2, _⟩ := C17_prefix_partial accF64 hnd hpos hv
    have := List.append_eq_nil_iff.1 (List.perm_nil.1 h2)
    obtain ⟨rfl, rfl⟩ := this
    exact ⟨[], h1, List.Perm.nil⟩
  · have hlen1 : 1 ≤ types.length := List.length_pos_iff.2 hne
    have htl : (types.length : Int) ≤ total (types.map (·.2)) := by
      clear hn hne hlen1 hnd
      induction types with
      | nil => simp [total]
      | cons p l ih =>
        have h1 := hpos p (by simp)
        have h2 := ih fun q hq => hpos q (by simp [hq])
        simp only [List.map_cons, total, List.length_cons]
        push_cast
        omega
    have hsmall : types.length ≤ 2 ^ 50 := by
      by_contra hbig
      have h1 : (2 : Int) ^ 50 < types.length := by exact_mod_cast not_le.1 hbig
      have h2 : (2 : Int) ^ 50 * 2 ^ 50 ≤ types.length * total (types.map (·.2)) := by
        apply mul_le_mul <;> omega
      omega
    obtain ⟨kept, rest, h1, h2, _, h4, _⟩ := C17_float_partial hnd hpos hne hv hsmall
    have hrest : rest = [] := by
      by_contra hr
      have hT : total (types.map (·.2)) = total (kept.map (·.2)) + total (rest.map (·.2)) := by
        rw [total_eq, total_eq, total_eq, ← isum_append, ← List.map_append]
        exact (isum_perm (h2.map _)).symm
      have hr1 : 1 ≤ total (rest.map (·.2)) := by
        obtain ⟨p, l, rfl⟩ := List.exists_cons_of_ne_nil hr
        have h5 := hpos p (h2.subset (by simp))
        have h6 : 0 ≤ isum (l.map (·.2)) := isum_nonneg (by
          intro x hx
          obtain ⟨q, hq, rfl⟩ := List.mem_map.1 hx
          have := hpos q (h2.subset (by simp [hq]))
          omega)
        rw [← total_eq] at h6
        simp only [List.map_cons, total]
        omega
      rw [hc] at h4
      have hTpos : (0 : ℚ) < total (types.map (·.2)) := by exact_mod_cast (by omega : 0 < total (types.map (·.2)))
      have h7 : (total (kept.map (·.2)) : ℚ) ≤ total (types.map (·.2)) - 1 := by
        exact_mod_cast (by omega : total (kept.map (·.2)) ≤ total (types.map (·.2)) - 1)
      have h8 : (types.length : ℚ) * total (types.map (·.2)) < 2 ^ 51 := by exact_mod_cast hn
      rw [le_div_iff₀ hTpos] at h4
      have h9 : (types.length : ℚ) / 2 ^ 51 * total (types.map (·.2)) < 1 := by
        rw [div_mul_eq_mul_div, div_lt_one (by positivity)]; exact h8
      nlinarith
    subst hrest
    rw [List.append_nil] at h2
    exact ⟨kept, h1, h2⟩

/-- seven types of which none is cut by coverage 1, though the quotients 1/7 are rounded -/
example : (filterCoverage accF64 ((List.range 7).map fun i => ([97 + i], 1)) (⟨1, 0⟩ : Dy)).toOption.map (·.2) = some 0 := by decide +kernel

end Verif
