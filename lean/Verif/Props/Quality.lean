import Verif.Lemmas.Quality
import Verif.Props.Codec
/-!
# Properties of the quality estimates: C59, C60

C59 is proved in exact arithmetic, hence the suffix `_partial`; for what binary64 rounding does to the values see `Props.QualityFloat` and
`Props.DivergenceFloat`.
-/

namespace Verif
open Spec

/-! ## C59: measures of imbalance -/

/-- C59: in exact arithmetic `EMD_simple` of a vector of non-negative counts, not all zero, with moving cost `c` lies in `[0, c (1 - 1/k)]`; it is 0
exactly for uniform counts and `c (1 - 1/k)` exactly when one entry holds everything. Missing: rounding. -/
theorem C59_emd_partial {stats : List ℚ} {c : ℚ} (hc : 0 < c) (hn : ∀ x ∈ stats, 0 ≤ x) (hs : ∃ x ∈ stats, x ≠ 0) :
    ∃ v, emdSimple stats c = .ok (some v) ∧ 0 ≤ v ∧ v ≤ c * (1 - 1 / stats.length) ∧
      (v = 0 ↔ ∀ x ∈ stats, ∀ y ∈ stats, x = y) ∧
      (v = c * (1 - 1 / stats.length) ↔ ∃ x ∈ stats, x = stats.sum) := by
  obtain ⟨x, hx, hx0⟩ := hs
  have hpos : 0 < stats.sum := by
    rcases (List.sum_nonneg hn).eq_or_lt with h | h
    · exact absurd (all_zero_of_sum hn h.symm x hx) hx0
    · exact h
  have hk : stats.length ≠ 0 := by
    have := List.length_pos_of_mem hx
    omega
  obtain ⟨h1, h2, h3, h4⟩ := emd_bounds hn hpos
  refine ⟨_, by simp only [emdSimple]; rw [if_pos hc, if_neg hk, if_neg hpos.ne'], ?_, ?_, ?_, ?_⟩
  · exact mul_nonneg (by positivity) h1
  · have := mul_le_mul_of_nonneg_left h2 (by positivity : 0 ≤ 1 / 2 * c)
    linarith
  · rw [← h3, mul_eq_zero]
    constructor
    · rintro (h | h)
      · linarith
      · exact h
    · exact Or.inr
  · have e : (∃ x ∈ stats, x = stats.sum) ↔ stats.sum ∈ stats :=
      ⟨fun ⟨x, h, e⟩ => e ▸ h, fun h => ⟨_, h, rfl⟩⟩
    rw [e, ← h4]
    generalize (stats.map fun x => |x / stats.sum - 1 / stats.length|).sum = S
    generalize (1 - 1 / (stats.length : ℚ)) = m
    constructor
    · intro h
      have : c * S = c * (2 * m) := by linarith
      exact mul_left_cancel₀ hc.ne' this
    · intro h
      rw [h]; ring

example : emdSimple [1, 1, 2] 1 = .ok (some (1 / 6)) := by
  norm_num [emdSimple, abs_of_neg, abs_of_pos]
example : emdSimple [0, 7, 0, 0] 1 = .ok (some (3 / 4)) := by
  norm_num [emdSimple, abs_of_neg, abs_of_pos]

/-- C59: the measure of the merge tracker is `EMD_simple` with unit cost. -/
theorem C59_tracker_emd (stats : List ℚ) : trackerEmd stats = emdSimple stats 1 := by
  simp [trackerEmd, emdSimple]

/-- C59: multiplying every count by the same number changes nothing, nor does reordering them. -/
theorem C59_emd_invariant (stats stats' : List ℚ) (c m : ℚ) (hm : m ≠ 0) (hp : stats'.Perm stats) :
    emdSimple (stats'.map fun x => m * x) c = emdSimple stats c := by
  have hsum : (stats'.map fun x => m * x).sum = m * stats.sum := by
    rw [← hp.sum_eq]
    clear hp
    induction stats' with
    | nil => simp
    | cons a l ih => simp only [List.map_cons, List.sum_cons, ih]; ring
  simp only [emdSimple, hsum, List.length_map, hp.length_eq, mul_eq_zero, hm, false_or, List.map_map]
  have : ((stats'.map ((fun x => |x / (m * stats.sum) - 1 / (stats.length : ℚ)|) ∘ fun x => m * x))).sum =
      (stats.map fun x => |x / stats.sum - 1 / (stats.length : ℚ)|).sum := by
    rw [← (hp.map fun x => |x / stats.sum - 1 / (stats.length : ℚ)|).sum_eq]
    congr 1
    apply List.map_congr_left
    intro x _
    simp only [Function.comp]
    rw [mul_div_mul_left _ _ hm]
  rw [this]

example : ([2, 3, 5] : List ℚ).Perm [5, 2, 3] ∧ (3 : ℚ) ≠ 0 := by decide

/-- C59: failures of `EMD_simple`: a cost that is not positive, an empty vector; a vector of sum zero gives `nan`. -/
theorem C59_emd_failures (stats : List ℚ) (c : ℚ) :
    (c ≤ 0 → emdSimple stats c = .error .assertion) ∧ (0 < c → emdSimple [] c = .error .zeroDiv) ∧
    (0 < c → stats ≠ [] → stats.sum = 0 → emdSimple stats c = .ok none) := by
  refine ⟨fun h => ?_, fun h => ?_, fun h h1 h2 => ?_⟩
  · simp [emdSimple, not_lt.2 h]
  · simp [emdSimple, h]
  · simp [emdSimple, h, h1, h2]

example : (0 : ℚ) < 1 ∧ ([0, 0] : List ℚ) ≠ [] ∧ ([0, 0] : List ℚ).sum = 0 := ⟨by norm_num, List.cons_ne_nil _ _, by norm_num⟩

/-- C59: in exact arithmetic the Kullback-Leibler divergence of non-negative vectors of the same length and the same sum, where the second is positive
wherever the first is, is the usual sum; it is not negative and 0 exactly for equal vectors. Missing: rounding. -/
theorem C59_kl_partial {p q : List ℝ} (hl : p.length = q.length) (hp : ∀ x ∈ p, 0 ≤ x) (hq : ∀ x ∈ q, 0 ≤ x)
    (hac : ∀ x ∈ p.zip q, 0 < x.1 → 0 < x.2) (hs : p.sum = q.sum) :
    ∃ v, klDiv p q = .ok v ∧ v = ((p.zip q).map fun x => x.1 * Real.log (x.1 / x.2)).sum ∧ 0 ≤ v ∧ (v = 0 ↔ p = q) := by
  have hterm := fun x (hx : x ∈ p.zip q) => kl_term (hp _ (mem_zip_both hx).1) (hq _ (mem_zip_both hx).2) (hac x hx)
  have h1 := sum_le_sum_eq (l := p.zip q) (f := fun x => x.1 - x.2) (g := fun x => x.1 * Real.log (x.1 / x.2)) (fun x hx => (hterm x hx).1)
  have h0 : ((p.zip q).map fun x => x.1 - x.2).sum = 0 := by
    rw [sum_map_sub', sum_zip_fst p q hl (fun x => x), sum_zip_snd p q hl (fun x => x)]
    simp [hs]
  rw [h0] at h1
  refine ⟨_, ?_, rfl, h1.1, ?_, ?_⟩
  · rw [klDiv, klLoop_ok, zero_add]
    exact fun x hx => ⟨hp _ (mem_zip_both hx).1, hac x hx⟩
  · intro h
    exact eq_of_zip hl (fun x hx => (hterm x hx).2 (h1.2 h.symm x hx))
  · rintro rfl
    apply List.sum_eq_zero
    intro z hz
    obtain ⟨x, hx, rfl⟩ := List.mem_map.1 hz
    have := zip_self_eq x hx
    obtain ⟨a, b⟩ := x
    simp only at this
    subst this
    by_cases ha : a = 0
    · simp [ha]
    · simp [div_self ha]

example : ([1 / 2, 1 / 2, 0] : List ℝ).length = ([1 / 4, 1 / 2, 1 / 4] : List ℝ).length ∧
    (∀ x ∈ ([1 / 2, 1 / 2, 0] : List ℝ).zip ([1 / 4, 1 / 2, 1 / 4] : List ℝ), 0 < x.1 → 0 < x.2) ∧
    ([1 / 2, 1 / 2, 0] : List ℝ).sum = ([1 / 4, 1 / 2, 1 / 4] : List ℝ).sum := by
  refine ⟨by simp, ?_, by norm_num⟩
  simp only [List.zip_cons_cons, List.zip_nil_left, List.mem_cons, List.not_mem_nil, or_false]
  rintro x (rfl | rfl | rfl)
  · intro _; show (0 : ℝ) < 1 / 4; norm_num
  · intro _; show (0 : ℝ) < 1 / 2; norm_num
  · intro h; exact absurd h (lt_irrefl _)

/-- C59: a zero of the second vector where the first is positive is refused. -/
theorem C59_kl_refuses {p q : List ℝ} (h : ∃ x ∈ p.zip q, 0 < x.1 ∧ x.2 ≤ 0) : klDiv p q = .error .assertion :=
  klLoop_error h 0

example : ∃ x ∈ ([1 / 2, 1 / 2] : List ℝ).zip ([1, 0] : List ℝ), 0 < x.1 ∧ x.2 ≤ 0 :=
  ⟨(1 / 2, 0), by simp, by norm_num, le_refl _⟩

/-- C59: `kl_div` does not check lengths: on vectors of different lengths it silently compares prefixes and the result can be negative. -/
theorem C59_kl_lengths_refuted : ∃ p q : List ℝ, p.sum = 1 ∧ q.sum = 1 ∧ (∀ x ∈ p, 0 < x) ∧ (∀ x ∈ q, 0 < x) ∧
    ∃ v, klDiv p q = .ok v ∧ v < 0 := by
  refine ⟨[1 / 2, 1 / 2], [1], by norm_num, by norm_num, by simp, by simp, 0 + 1 / 2 * Real.log (1 / 2 / 1), ?_, ?_⟩
  · norm_num [klDiv, klLoop]
  · have : Real.log (1 / 2 / 1 : ℝ) < 0 := Real.log_neg (by norm_num) (by norm_num)
    linarith

/-- C59: with a numpy that has `np.float`, the Jensen-Shannon divergence of two accepted vectors of equal length is a number; it is not negative, 0 exactly
for equal vectors, and at most `ln 2` times the mean of the two sums, so at most `ln 2` for vectors of sum 1. Missing: rounding. -/
theorem C59_js_partial {p q : List ℝ} (hl : p.length = q.length) (hp : ∀ x ∈ p, 0 ≤ x) (hq : ∀ x ∈ q, 0 ≤ x)
    (hsp : |p.sum - 1| < 1 / 10000) (hsq : |q.sum - 1| < 1 / 10000) :
    ∃ v, jsDiv true p q = .ok v ∧ 0 ≤ v ∧ v ≤ (p.sum + q.sum) / 2 * Real.log 2 ∧ (p.sum = 1 → q.sum = 1 → v ≤ Real.log 2) ∧ (v = 0 ↔ p = q) := by
  have hv : validateDistribution true p = .ok () := by
    simp only [validateDistribution, if_true]; rw [if_pos hsp, if_pos hp]
  have hv' : validateDistribution true q = .ok () := by
    simp only [validateDistribution, if_true]; rw [if_pos hsq, if_pos hq]
  obtain ⟨k1, k2⟩ := js_kl hp hq
  have hup : 1 / 2 * ((((p.zip q).map fun x => x.1 * Real.log (x.1 / (1 / 2 * (x.1 + x.2)))).sum) +
      (((p.zip q).map fun x => x.2 * Real.log (x.2 / (1 / 2 * (x.1 + x.2)))).sum)) ≤ (p.sum + q.sum) / 2 * Real.log 2 := by
    have a := (sum_le_sum_eq (l := p.zip q) (f := fun x => x.1 * Real.log (x.1 / (1 / 2 * (x.1 + x.2)))) (g := fun x => Real.log 2 * x.1)
      (fun x hx => by
        have := js_upper (hp _ (mem_zip_both hx).1) (hq _ (mem_zip_both hx).2); linarith)).1
    have b := (sum_le_sum_eq (l := p.zip q) (f := fun x => x.2 * Real.log (x.2 / (1 / 2 * (x.1 + x.2)))) (g := fun x => Real.log 2 * x.2)
      (fun x hx => by
        have := js_upper (hq _ (mem_zip_both hx).2) (hp _ (mem_zip_both hx).1); rw [add_comm x.2 x.1] at this; linarith)).1
    rw [sum_map_mul', sum_zip_fst p q hl (fun x => x)] at a
    rw [sum_map_mul', sum_zip_snd p q hl (fun x => x)] at b
    simp only [List.map_id'] at a b
    linarith
  have hterm : ∀ x ∈ p.zip q, 0 ≤ x.1 * Real.log (x.1 / (1 / 2 * (x.1 + x.2))) + x.2 * Real.log (x.2 / (1 / 2 * (x.1 + x.2))) ∧
      (0 = x.1 * Real.log (x.1 / (1 / 2 * (x.1 + x.2))) + x.2 * Real.log (x.2 / (1 / 2 * (x.1 + x.2))) → x.1 = x.2) := by
    intro x hx
    have h1 := hp _ (mem_zip_both hx).1
    have h2 := hq _ (mem_zip_both hx).2
    have t1 := kl_term (q := 1 / 2 * (x.1 + x.2)) h1 (by linarith) (fun h => by linarith)
    have t2 := kl_term (q := 1 / 2 * (x.1 + x.2)) h2 (by linarith) (fun h => by linarith)
    refine ⟨by linarith [t1.1, t2.1], fun h => ?_⟩
    have := t1.2 (by linarith [t1.1, t2.1])
    linarith
  have hlow := sum_le_sum_eq (l := p.zip q) (f := fun _ => (0 : ℝ)) (fun x hx => (hterm x hx).1)
  rw [sum_map_add'] at hlow
  have hz : ((p.zip q).map fun _ => (0 : ℝ)).sum = 0 := List.sum_eq_zero (by simp)
  rw [hz] at hlow
  refine ⟨_, by simp only [jsDiv, hv, hv', hl, if_true, k1, k2], ?_, hup, ?_, ?_, ?_⟩
  · linarith [hlow.1]
  · intro h1 h2
    rw [h1, h2] at hup
    linarith
  · intro h
    exact eq_of_zip hl (fun x hx => (hterm x hx).2 (hlow.2 (by linarith) x hx))
  · rintro rfl
    have : ∀ x ∈ p.zip p, x.1 * Real.log (x.1 / (1 / 2 * (x.1 + x.2))) = 0 ∧ x.2 * Real.log (x.2 / (1 / 2 * (x.1 + x.2))) = 0 := by
      rintro ⟨a, b⟩ hx
      have := zip_self_eq _ hx
      simp only at this
      subst this
      have e : 1 / 2 * (a + a) = a := by ring
      simp only [e]
      by_cases ha : a = 0
      · simp [ha]
      · simp [div_self ha]
    rw [List.sum_eq_zero (l := (p.zip p).map fun x => x.1 * Real.log (x.1 / (1 / 2 * (x.1 + x.2)))) (by
        intro z hz; obtain ⟨x, hx, rfl⟩ := List.mem_map.1 hz; exact (this x hx).1),
      List.sum_eq_zero (l := (p.zip p).map fun x => x.2 * Real.log (x.2 / (1 / 2 * (x.1 + x.2)))) (by
        intro z hz; obtain ⟨x, hx, rfl⟩ := List.mem_map.1 hz; exact (this x hx).2)]
    ring

/-- the bound is attained by vectors with disjoint supports -/
example : jsDiv true [1, 0] [0, 1] = .ok (Real.log 2) := by
  norm_num [jsDiv, validateDistribution, klDiv, klLoop]
  ring

/-- C59: the Jensen-Shannon divergence is symmetric, failures included. -/
theorem C59_js_symmetric (npFloat : Bool) (p q : List ℝ) : jsDiv npFloat p q = jsDiv npFloat q p := by
  cases npFloat with
  | false => simp [jsDiv, validateDistribution]
  | true =>
    have herr : ∀ l : List ℝ, validateDistribution true l = .ok () ∨ validateDistribution true l = .error .assertion := by
      intro l
      simp only [validateDistribution, if_true]
      split
      · split <;> simp
      · simp
    simp only [jsDiv]
    rcases herr p with hp | hp <;> rcases herr q with hq | hq <;> simp only [hp, hq]
    by_cases hl : p.length = q.length
    · rw [if_pos hl, if_pos hl.symm]
      have e : ((q.zip p).map fun x => 1 / 2 * (x.1 + x.2)) = (p.zip q).map fun x => 1 / 2 * (x.1 + x.2) := by
        rw [← List.zip_swap, List.map_map]
        apply List.map_congr_left
        intro x _
        simp only [Function.comp, Prod.fst_swap, Prod.snd_swap]
        ring
      rw [e]
      obtain ⟨k1, k2⟩ := js_kl (validate_ok hp).2 (validate_ok hq).2
      rw [k1, k2]
      simp only
      rw [add_comm]
    · rw [if_neg hl, if_neg (fun h => hl h.symm)]

/-- C59 is false with numpy 1.24 or later, which the package allows: `np.float` no longer exists, so `js_div` fails on every argument, and so does
`earth_mov_dist` with its default `validate=True`. -/
theorem C59_js_refuted (p q : List ℝ) (c : ℝ) :
    jsDiv false p q = .error .attr ∧ earthMovDist false p q c true = .error .attr := by
  constructor
  · simp [jsDiv, validateDistribution]
  · simp [earthMovDist, validateDistribution]

/-- C59: without validation `earth_mov_dist` of vectors of equal length is not negative, symmetric, and 0 exactly for equal vectors. Missing: rounding. -/
theorem C59_earth_mov_partial (npFloat : Bool) {p q : List ℝ} {c : ℝ} (hl : p.length = q.length) (hc : 0 < c) :
    ∃ v, earthMovDist npFloat p q c false = .ok v ∧ earthMovDist npFloat q p c false = .ok v ∧ 0 ≤ v ∧ (v = 0 ↔ p = q) := by
  have hsym : ((q.zip p).map fun x => |x.1 - x.2|) = (p.zip q).map fun x => |x.1 - x.2| := by
    rw [← List.zip_swap, List.map_map]
    apply List.map_congr_left
    intro x _
    simp only [Function.comp, Prod.fst_swap, Prod.snd_swap]
    exact abs_sub_comm _ _
  have h1 := sum_le_sum_eq (l := p.zip q) (f := fun _ => (0 : ℝ)) (g := fun x => |x.1 - x.2|) (fun x _ => abs_nonneg _)
  have hz : ((p.zip q).map fun _ => (0 : ℝ)).sum = 0 := List.sum_eq_zero (by simp)
  rw [hz] at h1
  refine ⟨c * ((p.zip q).map fun x => |x.1 - x.2|).sum, ?_, ?_, mul_nonneg hc.le h1.1, ?_, ?_⟩
  · simp [earthMovDist, hl, hc, hsym]
  · simp [earthMovDist, hl, hc]
  · intro h
    rcases mul_eq_zero.1 h with h | h
    · exact absurd h hc.ne'
    · exact eq_of_zip hl (fun x hx => by
        have := h1.2 h.symm x hx
        exact sub_eq_zero.1 (abs_eq_zero.1 this.symm))
  · rintro rfl
    rw [List.sum_eq_zero (by
      intro z hz; obtain ⟨x, hx, rfl⟩ := List.mem_map.1 hz; simp [zip_self_eq x hx])]
    simp

example : earthMovDist false [1, 0] [1 / 2, 1 / 2] 1 false = .ok 1 := by
  norm_num [earthMovDist, abs_of_neg, abs_of_pos]

/-! ## C60: counts of tokens and of unknowns -/

/-- the pieces of a line and its ids -/
theorem encode_pieces {k : Kind} (hk : k = .word ∨ k = .char ∨ k = .bpe) {tbl : List Ty} {s : Scheme} (h : Scheme.make k tbl = .ok s)
    (hi : k = .bpe → Indexed tbl) : s.table = tbl ∧ s.kind = k ∧ validateReserved tbl = .ok () ∧
      ∀ line, ∃ ps, s.encodeStr line = .ok ps ∧ s.encode line = .ok (ps.map s.idOf) := by
  rcases hk with rfl | rfl | rfl
  · obtain ⟨a, b, c, _, d⟩ := make_word_ok h
    refine ⟨a, b, d, fun line => ⟨split line, by simp [Scheme.encodeStr, b], ?_⟩⟩
    simp only [Scheme.encode, Scheme.encodeStr, b]
    exact idsOf_eq (by rw [b]; decide) c _
  · obtain ⟨a, b, c, _, d⟩ := make_char_ok h
    refine ⟨a, b, d, fun line => ⟨_, by simp only [Scheme.encodeStr, b]; rfl, ?_⟩⟩
    simp only [Scheme.encode, Scheme.encodeStr, b]
    exact idsOf_eq (by rw [b]; decide) c _
  · obtain ⟨a, b, _, d, _⟩ := make_bpe_ok h
    refine ⟨a, b, d, fun line => ?_⟩
    obtain ⟨out, _, he, hen⟩ := bpe_encode_spec h (hi rfl) line
    exact ⟨_, he, by rw [hen, List.map_map]; rfl⟩

/-- C60 (word, character and bpe schemes): for one or more lines the estimate succeeds; `n_types` is the size of the vocabulary, `n_tokens` the number of pieces of
all lines, `unk_count` the number of pieces that are not in the vocabulary or spell `<unk>`, `mean_seq_len` their ratio before rounding; the imbalance is `nan`
exactly if there are no pieces, and is otherwise the distance of the exact counts of the ids. -/
theorem C60_estimate {k : Kind} (hk : k = .word ∨ k = .char ∨ k = .bpe) {tbl : List Ty} {s : Scheme} (h : Scheme.make k tbl = .ok s)
    (hi : k = .bpe → Indexed tbl) {lines : List Str} (hl : lines ≠ []) :
    ∃ pss idss q, List.Forall₂ (fun l ps => s.encodeStr l = .ok ps) lines pss ∧ List.Forall₂ (fun l ids => s.encode l = .ok ids) lines idss ∧
      estimate s lines = .ok q ∧ q.nTypes = tbl.length ∧ q.nTokens = pss.flatten.length ∧
      q.unkCount = pss.flatten.countP (fun p => decide (p ∉ names tbl ∨ p = lit "<unk>")) ∧
      q.meanSeqLen = (pss.flatten.length : ℚ) / lines.length ∧ (q.imbalance = none ↔ pss.flatten = []) ∧
      emdSimple ((List.range tbl.length).map fun (j : Nat) => (idss.flatten.count (j : Int) : ℚ)) 1 = .ok q.imbalance := by
  obtain ⟨rfl, hkind, hv, hp⟩ := encode_pieces hk h hi
  choose f hf hg using hp
  have hnc : s.kind ≠ .clasz := by rw [hkind]; rcases hk with rfl | rfl | rfl <;> decide
  have hnb : s.kind ≠ .byte := by rw [hkind]; rcases hk with rfl | rfl | rfl <;> decide
  have hF : ∀ {β : Type} (P : Str → β → Prop) (g : Str → β), (∀ l, P l (g l)) → ∀ ls : List Str, List.Forall₂ P ls (ls.map g) := by
    intro β P g hP ls
    induction ls with
    | nil => exact .nil
    | cons a ls ih => exact .cons (hP a) ih
  have hE := hF (fun l ids => s.encode l = .ok ids) (fun l => (f l).map s.idOf) hg lines
  have hflat : (lines.map fun l => (f l).map s.idOf).flatten = (lines.map f).flatten.map s.idOf := by
    rw [List.map_flatten, List.map_map]; rfl
  obtain ⟨t1, ht1, _⟩ := validateReserved_ok hv 1 (by omega)
  have hlen : 1 < s.table.length := by
    by_contra hc
    rw [List.getElem?_eq_none (by omega)] at ht1
    simp at ht1
  obtain ⟨out, a1, a2, a3, a4⟩ := statsLoop_ok hE (stats := List.replicate s.table.length 0) 0 (by
    intro ids hids i hii
    obtain ⟨l, _, rfl⟩ := List.mem_map.1 hids
    obtain ⟨p, _, rfl⟩ := List.mem_map.1 hii
    rw [List.length_replicate]
    exact idOf_range hnc hv p)
  rw [hflat, List.length_map] at a3
  have hz : isum (List.replicate s.table.length 0) = 0 := by rw [isum_eq_sum]; simp
  rw [hz, zero_add] at a3
  have hout : out = (List.range s.table.length).map fun (j : Nat) => (((lines.map fun l => (f l).map s.idOf).flatten.count (j : Int) : Nat) : Int) := by
    apply List.ext_getElem?
    intro j
    rw [a4, List.getElem?_map]
    by_cases hj : j < s.table.length
    · rw [List.getElem?_replicate_of_lt hj, List.getElem?_range hj]; simp
    · rw [List.getElem?_eq_none (by simpa using hj), List.getElem?_eq_none (by simpa using hj)]; rfl
  have hunk : pyIndex out 1 = .ok ((((lines.map f).flatten.countP fun p => decide (p ∉ names s.table ∨ p = lit "<unk>")) : Nat) : Int) := by
    have : out[1]? = some ((((lines.map f).flatten.countP fun p => decide (p ∉ names s.table ∨ p = lit "<unk>")) : Nat) : Int) := by
      rw [a4, List.getElem?_replicate_of_lt hlen, Option.map_some, zero_add]
      congr 2
      rw [hflat, List.count, List.countP_map]
      apply List.countP_congr
      intro p _
      have := idOf_eq_unk hnc hv p
      simp only [Function.comp, beq_iff_eq, decide_eq_true_eq]
      exact this
    exact pyIndex_some this
  have hunkIdx : s.unkIdx = .ok 1 := by
    simp only [Scheme.unkIdx, hkind]; rcases hk with rfl | rfl | rfl <;> rfl
  have hcast : out.map (fun (x : Int) => (x : ℚ)) =
      (List.range s.table.length).map fun (j : Nat) => ((lines.map fun l => (f l).map s.idOf).flatten.count (j : Int) : ℚ) := by
    rw [hout, List.map_map]
    apply List.map_congr_left
    intro j _
    simp
  have hsum : (out.map (fun (x : Int) => (x : ℚ))).sum = ((lines.map f).flatten.length : ℚ) := by
    have : ∀ l : List Int, (l.map (fun (x : Int) => (x : ℚ))).sum = ((isum l : Int) : ℚ) := by
      intro l
      rw [isum_eq_sum]
      induction l with
      | nil => simp
      | cons a l ih => simp only [List.map_cons, List.sum_cons, ih]; push_cast; ring
    rw [this, a3, Int.cast_natCast]
  have hn0 : lines.length ≠ 0 := fun h => hl (List.length_eq_zero_iff.1 h)
  have hl0 : (out.map (fun (x : Int) => (x : ℚ))).length ≠ 0 := by
    rw [List.length_map, a2, List.length_replicate]; omega
  have hemd : ∃ imb, emdSimple (out.map (fun (x : Int) => (x : ℚ))) 1 = .ok imb ∧ (imb = none ↔ (lines.map f).flatten = []) := by
    simp only [emdSimple, zero_lt_one, if_true, hl0, if_false, hsum]
    by_cases he : (lines.map f).flatten = []
    · refine ⟨none, ?_, by simp [he]⟩
      rw [if_pos (by rw [he]; simp)]
    · refine ⟨_, if_neg (by
        have := List.length_pos_iff.2 he
        exact_mod_cast this.ne'), by simp [he]⟩
  obtain ⟨imb, hi1, hi2⟩ := hemd
  refine ⟨lines.map f, lines.map fun l => (f l).map s.idOf, ⟨s.table.length, imb, (lines.map f).flatten.length,
    (((lines.map f).flatten.length : Int) : ℚ) / lines.length,
    (((lines.map f).flatten.countP fun p => decide (p ∉ names s.table ∨ p = lit "<unk>")) : Nat)⟩,
    hF _ f hf lines, hE, ?_, rfl, rfl, rfl, by rw [Int.cast_natCast], hi2, ?_⟩
  · simp only [estimate, a1, Nat.zero_add, if_neg hn0, hunkIdx, hunk, hi1, a3]
  · rw [← hcast]; exact hi1

/-- C60 (word scheme), in terms of the text: tokens are the white-space separated words; unknown are those that the vocabulary lacks (and `<unk>` itself). -/
theorem C60_word_text {tbl : List Ty} {s : Scheme} (h : Scheme.make .word tbl = .ok s) {lines : List Str} (hl : lines ≠ [])
    {wss : List (List Str)} (hw : List.Forall₂ Tokens lines wss) :
    ∃ q, estimate s lines = .ok q ∧ q.nTokens = wss.flatten.length ∧
      q.unkCount = wss.flatten.countP (fun w => decide (w ∉ names tbl ∨ w = lit "<unk>")) ∧
      q.meanSeqLen = (wss.flatten.length : ℚ) / wss.length := by
  obtain ⟨pss, idss, q, h1, h6, h2, _, h3, h4, h5, h7, h8⟩ := C60_estimate (Or.inl rfl) h (by simp) hl
  have hk := (make_word_ok h).2.1
  have : pss = wss := by
    clear h3 h4 h5 h2 hl h6 h7 h8
    induction hw generalizing pss with
    | nil => cases h1; rfl
    | cons ht _ ih =>
      cases h1 with
      | cons hp hps =>
        simp only [Scheme.encodeStr, hk, split_of_tokens ht] at hp
        cases hp
        rw [ih _ hps]
  subst this
  exact ⟨q, h2, h3, h4, by rw [h5, hw.length_eq]⟩

example : withScheme .word (exTable Level.word ["hello", "world"]) (fun s =>
    match estimate s [lit " hello  there world", lit "", lit "<unk> x hello"] with
    | .error e => .error e
    | .ok q => .ok (q.nTypes, q.nTokens, q.unkCount, q.meanSeqLen)) = .ok (8, 6, 3, 2) := by decide +kernel

/-- C60: without lines the mean length divides by zero, whatever the scheme. -/
theorem C60_no_lines (s : Scheme) : estimate s [] = .error .zeroDiv := by
  simp [estimate, statsLoop]

/-- C60 is false for the byte scheme: it has no `unk_idx`, so the estimate fails on every non-empty list of encodable lines. -/
theorem C60_byte_refuted {tbl : List Ty} {s : Scheme} (h : Scheme.make .byte tbl = .ok s) {lines : List Str} (hl : lines ≠ [])
    {idss : List (List Int)} (he : List.Forall₂ (fun l ids => s.encode l = .ok ids) lines idss) : estimate s lines = .error .attr := by
  have hkind : s.kind = .byte := (mkInvertible_ok h).2.1
  obtain ⟨out, a1, _, _, _⟩ := statsLoop_ok he (stats := List.replicate s.table.length 0) 0 (by
    intro ids hids i hii
    rw [List.length_replicate]
    have hh := (List.forall₂_iff_get.1 he).2
    obtain ⟨n, hn, rfl⟩ := List.mem_iff_getElem.1 hids
    have hl' := hh n (by have := he.length_eq; omega) hn
    exact C05_ids_in_range_byte h _ hl' i hii)
  have hn0 : lines.length ≠ 0 := fun h => hl (List.length_eq_zero_iff.1 h)
  simp [estimate, a1, hn0, Scheme.unkIdx, hkind]

example : withScheme .byte [] (fun s => s.encode (lit "hé")) = .ok [104, 195, 169] := by decide +kernel

/-- C60 is false for the class scheme: `unk_idx` is -1, so `unk_count` is the number of lines with the last label, though every label is known. -/
theorem C60_class_refuted : ∃ (tbl : List Ty) (s : Scheme) (lines : List Str) (q : CodecQuality), Scheme.make .clasz tbl = .ok s ∧
    (∀ l ∈ lines, l ∈ names tbl) ∧ estimate s lines = .ok q ∧ q.unkCount = 2 := by
  have h : (match Scheme.make .clasz [⟨lit "neg", Level.clasz, 0, 1, []⟩, ⟨lit "pos", Level.clasz, 1, 2, []⟩] with
    | .error _ => false
    | .ok s => match estimate s [lit "pos", lit "neg", lit "pos"] with
      | .error _ => false
      | .ok q => decide (q.unkCount = 2)) = true := by decide +kernel
  cases hs : Scheme.make .clasz [⟨lit "neg", Level.clasz, 0, 1, []⟩, ⟨lit "pos", Level.clasz, 1, 2, []⟩] with
  | error e => rw [hs] at h; simp at h
  | ok s =>
    rw [hs] at h
    simp only at h
    cases hq : estimate s [lit "pos", lit "neg", lit "pos"] with
    | error e => rw [hq] at h; simp at h
    | ok q =>
      rw [hq] at h
      exact ⟨_, s, _, q, hs, by decide, hq, by simpa using h⟩

end Verif
