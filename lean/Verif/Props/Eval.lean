import Verif.Lemmas.Eval
import Verif.Lemmas.Learn
import Verif.Props.Mapred
import Mathlib.Data.List.Zip
/-!
# Properties of n-grams, recall, precision, F1 and out-of-vocabulary counts (C57, C58, C68, C74)
-/

namespace Verif
open Spec

section
variable {α : Type}

/-! ## C57 -/

/-- C57: the grams are the contiguous windows of length `n`, in order: number `i` begins at position `i`; there are
`max(0, len - n + 1)` of them. -/
theorem C57_windows (sent : List α) {n : ℤ} (hn : 0 < n) : ∃ gs, makeNGrams sent n = .ok gs ∧ (gs.length : ℤ) = max 0 (sent.length - n + 1) ∧
    ∀ (i : ℕ) (g : List α), gs[i]? = some g ↔ (g.length : ℤ) = n ∧ ∃ pre suf, sent = pre ++ g ++ suf ∧ pre.length = i := by
  refine ⟨_, by rw [makeNGrams, if_pos hn], by simp; omega, fun i g => ?_⟩
  constructor
  · intro h
    rw [List.getElem?_map, Option.map_eq_some_iff] at h
    obtain ⟨j, hj, rfl⟩ := h
    obtain ⟨hi, hj⟩ := List.getElem?_eq_some_iff.1 hj
    rw [List.getElem_range] at hj
    rw [List.length_range] at hi
    subst hj
    refine ⟨by rw [List.length_take, List.length_drop]; omega, sent.take i, (sent.drop i).drop n.toNat, ?_, by rw [List.length_take]; omega⟩
    rw [List.append_assoc, List.take_append_drop, List.take_append_drop]
  · rintro ⟨h1, pre, suf, rfl, rfl⟩
    have hn' : n.toNat = g.length := by omega
    rw [List.getElem?_map, hn', List.getElem?_range (by simp; omega)]
    simp

/-- C57: `n <= 0` raises AssertionError. -/
theorem C57_nonpositive (sent : List α) {n : ℤ} (hn : n ≤ 0) : makeNGrams sent n = .error .assertion := by
  rw [makeNGrams, if_neg (by omega)]

example : makeNGrams [1, 2, 3, 4] 2 = .ok [[1, 2], [2, 3], [3, 4]] ∧ makeNGrams [1, 2] 3 = .ok [] ∧ makeNGrams ([] : List Nat) 1 = .ok [] := by decide

end

section
variable {α : Type} [DecidableEq α]

/-- C57: the table of all sentences has each gram that occurs, with its number of occurrences. -/
theorem C57_all (sents : List (List α)) {n : ℕ} (hn : 0 < n) : ∃ d, makeNGramsAll sents n = .ok d ∧ (Dict.keys d).Nodup ∧
    ∀ g, Dict.get? d g = if totalCount n sents g = 0 then none else some (totalCount n sents g : ℤ) := by
  have key : ∀ (l pre : List (List α)) (d : Dict (List α) Int), (Dict.keys d).Nodup →
      (∀ g, Dict.get? d g = if totalCount n pre g = 0 then none else some (totalCount n pre g : ℤ)) →
      ∃ d', nGramsLoop n l d = .ok d' ∧ (Dict.keys d').Nodup ∧
        ∀ g, Dict.get? d' g = if totalCount n (pre ++ l) g = 0 then none else some (totalCount n (pre ++ l) g : ℤ) := by
    intro l
    induction l with
    | nil => intro pre d h1 h2; exact ⟨d, rfl, h1, by simpa using h2⟩
    | cons s l ih =>
      intro pre d h1 h2
      have hm : makeNGrams s (n : ℤ) = .ok ((List.range (s.length + 1 - n)).map fun i => (s.drop i).take n) := by
        rw [makeNGrams, if_pos (by exact_mod_cast hn)]; rfl
      obtain ⟨d', a1, a2, a3⟩ := ih (pre ++ [s]) (Dict.count d ((List.range (s.length + 1 - n)).map fun i => (s.drop i).take n))
        (Dict.nodup_keys_count h1 _) (fun g => by
          have c1 := Dict.cnt_count d ((List.range (s.length + 1 - n)).map fun i => (s.drop i).take n) g
          have c2 := Dict.mem_keys_count d ((List.range (s.length + 1 - n)).map fun i => (s.drop i).take n) g
          rw [← List.count_pos_iff (l := List.map _ _), windows_count hn] at c2
          rw [windows_count hn] at c1
          have c3 : totalCount n (pre ++ [s]) g = totalCount n pre g + gramCount n s g := by simp [totalCount]
          have c4 := h2 g
          rw [c3]
          simp only [← Dict.isSome_get?_iff, Dict.cnt] at c1 c2
          generalize Dict.get? (Dict.count d ((List.range (s.length + 1 - n)).map fun i => (s.drop i).take n)) g = o at c1 c2 ⊢
          by_cases h0 : totalCount n pre g = 0
          · rw [if_pos h0] at c4
            rw [c4] at c1 c2
            rw [h0]
            cases o with
            | none => simp at c2; rw [if_pos (by omega)]
            | some v => simp at c1 c2; rw [if_neg (by omega), c1]; simp
          · rw [if_neg h0] at c4
            rw [c4] at c1 c2
            cases o with
            | none => simp at c2
            | some v => simp at c1; rw [if_neg (by omega), c1]; simp)
      refine ⟨d', ?_, a2, by simpa using a3⟩
      simp only [nGramsLoop, hm, a1]
  obtain ⟨d, h1, h2, h3⟩ := key sents [] [] (by simp [Dict.keys]) (by simp [totalCount])
  exact ⟨d, h1, h2, by simpa using h3⟩

example : makeNGramsAll [[1, 2, 1, 2], [1, 2], []] 2 = .ok [([1, 2], 3), ([2, 1], 1)] ∧ totalCount 2 [[1, 2, 1, 2], [1, 2], []] [1, 2] = 3 := by decide

/-! ## C58 -/

/-- C58: in exact arithmetic the recall of a gram is the mean, over the sentence pairs whose reference has it, of the part of its
occurrences that is matched by the candidate; the precision is the same with candidates and references exchanged; grams that do not
occur have no entry; the frequencies are total numbers of occurrences. -/
theorem C58_report (cands refs : List (List α)) {n : ℕ} (hn : 0 < n) : ∃ rep, countGramRecall (fun x => x) cands refs n = .ok rep ∧
    (∀ g, Dict.get? rep.recalls g = if (refs.zip cands).filterMap (matchRatio n g) = [] then none else some (meanRatio n (refs.zip cands) g)) ∧
    (∀ g, Dict.get? rep.precisions g = if (cands.zip refs).filterMap (matchRatio n g) = [] then none else some (meanRatio n (cands.zip refs) g)) ∧
    (∀ g, Dict.get? rep.refFreqs g = if totalCount n ((refs.zip cands).map (·.1)) g = 0 then none else some (totalCount n ((refs.zip cands).map (·.1)) g : ℤ)) ∧
    (∀ g, Dict.get? rep.candFreqs g = if totalCount n ((cands.zip refs).map (·.1)) g = 0 then none else some (totalCount n ((cands.zip refs).map (·.1)) g : ℤ)) := by
  have hsum : ∀ l : List ℚ, flSum (fun x => x) l = l.sum := fun l => by
    rw [flSum, List.sum_eq_foldl]
  obtain ⟨rep, h1, h2⟩ := countGramRecall_ok (fun x => x) hn cands refs
  refine ⟨rep, h1, fun g => ?_, fun g => ?_, fun g => ?_, h2.cands⟩
  · have := h2.recall g
    rw [List.zip_swap] at this
    simp only [List.map_id', hsum] at this
    exact this
  · have := h2.prec g
    simp only [List.map_id', hsum] at this
    exact this
  · have := h2.refs g
    rw [← List.zip_swap, List.map_map]
    exact this

/-- C58: recall and precision lie in [0, 1], in exact arithmetic and in every floating-point arithmetic with a monotone rounding
that is exact on small counts, as binary64 is; and they are floats. -/
theorem C58_range {fl : ℚ → ℚ} (hf : Rounding fl) (cands refs : List (List α)) (hl : (cands.zip refs).length ≤ 2 ^ 53) {n : ℕ} (hn : 0 < n) :
    ∃ rep, countGramRecall fl cands refs n = .ok rep ∧ (∀ g v, Dict.get? rep.recalls g = some v → 0 ≤ v ∧ v ≤ 1 ∧ fl v = v) ∧
      (∀ g v, Dict.get? rep.precisions g = some v → 0 ≤ v ∧ v ≤ 1 ∧ fl v = v) := by
  have key : ∀ (pairs : List (List α × List α)) (g : List α) (v : ℚ), pairs.length ≤ 2 ^ 53 →
      (if pairs.filterMap (matchRatio n g) = [] then none else
        some (fl (flSum fl ((pairs.filterMap (matchRatio n g)).map fl) / fl (pairs.filterMap (matchRatio n g)).length))) = some v →
      0 ≤ v ∧ v ≤ 1 ∧ fl v = v := by
    intro pairs g v hp h
    split at h
    · cases h
    · simp only [Option.some.injEq] at h
      subst h
      have := mean_range hf (l := pairs.filterMap (matchRatio n g)) (le_trans (List.length_filterMap_le _ _) hp) (by
        intro x hx
        obtain ⟨p, _, hp⟩ := List.mem_filterMap.1 hx
        exact matchRatio_range hp)
      exact ⟨this.1, this.2, hf.idem _⟩
  obtain ⟨rep, h1, h2⟩ := countGramRecall_ok fl hn cands refs
  refine ⟨rep, h1, fun g v h => ?_, fun g v h => ?_⟩
  · exact key _ g v (by rw [List.length_map]; exact hl) ((h2.recall g).symm.trans h)
  · exact key _ g v hl ((h2.prec g).symm.trans h)

theorem gramLoop_total (fl : ℚ → ℚ) (other : Dict (List α) Int) : ∀ (own : List (List α × Int)) (acc : GramAcc α), (∀ p ∈ own, 0 < p.2) →
    ∃ acc', gramLoop fl other own acc = .ok acc'
  | [], acc, _ => ⟨acc, rfl⟩
  | (k, f) :: own, acc, h => by
    rw [gramLoop, if_pos (h (k, f) (by simp))]
    exact gramLoop_total fl other own _ fun p hp => h p (by simp [hp])

theorem gramPairs_swap (fl : ℚ → ℚ) (n : ℤ) : ∀ (l : List (List α × List α)) (r c : GramAcc α),
    gramPairs fl n (l.map Prod.swap) c r = match gramPairs fl n l r c with
      | .error e => .error e
      | .ok (a, b) => .ok (b, a)
  | [], r, c => rfl
  | (cand, ref) :: l, r, c => by
    simp only [List.map_cons, Prod.swap_prod_mk, gramPairs]
    by_cases hn : 0 < n
    · obtain ⟨m, rfl⟩ := Int.eq_ofNat_of_zero_le hn.le
      have hm : 0 < m := by exact_mod_cast hn
      have hpos : ∀ (s : List α) (gs : List (List α)), makeNGrams s (m : ℤ) = .ok gs → ∀ p ∈ Dict.count ([] : Dict (List α) Int) gs, 0 < p.2 := by
        intro s gs hg p hp
        obtain ⟨gs', a1, a2, a3⟩ := gramDict hm s
        rw [hg] at a1
        cases a1
        have := a3 p.1
        rw [Dict.get?_of_mem a2 hp] at this
        split at this
        · cases this
        · simp only [Option.some.injEq] at this
          omega
      obtain ⟨cg, c1, _⟩ := gramDict hm cand
      obtain ⟨rg, r1, _⟩ := gramDict hm ref
      obtain ⟨r', a1⟩ := gramLoop_total fl (Dict.count [] cg) (Dict.count [] rg) r (hpos ref rg r1)
      obtain ⟨c', b1⟩ := gramLoop_total fl (Dict.count [] rg) (Dict.count [] cg) c (hpos cand cg c1)
      simp only [r1, c1, a1, b1]
      exact gramPairs_swap fl m l r' c'
    · have h1 : makeNGrams cand n = .error .assertion := by rw [makeNGrams, if_neg hn]
      have h2 : makeNGrams ref n = .error .assertion := by rw [makeNGrams, if_neg hn]
      simp only [h1, h2]

/-- the report with the two sides exchanged -/
def Spec.exchanged (rep : GramReport α) : GramReport α := ⟨rep.precisions, rep.candFreqs, rep.recalls, rep.refFreqs⟩

omit [DecidableEq α] in
theorem averages_error (fl : ℚ → ℚ) : ∀ {d : Dict (List α) (List ℚ)} {e : Exc}, averages fl d = .error e → e = .zeroDiv
  | [], e, h => by cases h
  | (g, l) :: d, e, h => by
    rw [averages] at h
    split at h
    · cases h; rfl
    · split at h
      · rename_i e' he
        cases h
        exact averages_error fl he
      · cases h

/-- C58: exchanging candidates and references exchanges recall and precision, in every arithmetic. -/
theorem C58_exchange (fl : ℚ → ℚ) (cands refs : List (List α)) (n : ℤ) :
    countGramRecall fl refs cands n = match countGramRecall fl cands refs n with
      | .error e => .error e
      | .ok rep => .ok (exchanged rep) := by
  rw [countGramRecall, ← List.zip_swap, gramPairs_swap, countGramRecall]
  cases gramPairs fl n (cands.zip refs) ([], []) ([], []) with
  | error e => rfl
  | ok rc =>
    obtain ⟨r, c⟩ := rc
    simp only
    cases h1 : averages fl r.1 with
    | error e =>
      cases h2 : averages fl c.1 with
      | error e' => simp only [averages_error fl h1, averages_error fl h2]
      | ok d => rfl
    | ok d =>
      cases h2 : averages fl c.1 with
      | error e' => rfl
      | ok d' => rfl

/-- C58: identical corpora have recall and precision exactly 1 for every gram, also in floating point. -/
theorem C58_identical {fl : ℚ → ℚ} (hf : Rounding fl) (sents : List (List α)) (hl : sents.length ≤ 2 ^ 53) {n : ℕ} (hn : 0 < n) :
    ∃ rep, countGramRecall fl sents sents n = .ok rep ∧ (∀ g v, Dict.get? rep.recalls g = some v → v = 1) ∧
      (∀ g v, Dict.get? rep.precisions g = some v → v = 1) ∧ ∀ g, 0 < totalCount n sents g → Dict.get? rep.recalls g = some 1 ∧ Dict.get? rep.precisions g = some 1 := by
  have f1 : fl 1 = 1 := by have := hf.nat 1 (by norm_num); simpa using this
  have hzz : sents.zip sents = sents.map fun s => (s, s) := by
    induction sents with
    | nil => rfl
    | cons s l ih => simp only [List.zip_cons_cons, List.map_cons]; rw [ih (by simp at hl; omega)]
  have hmean : ∀ g, (sents.zip sents).filterMap (matchRatio n g) ≠ [] →
      fl (flSum fl (((sents.zip sents).filterMap (matchRatio n g)).map fl) / fl ((sents.zip sents).filterMap (matchRatio n g)).length) = 1 := by
    intro g hne
    have hone : (sents.zip sents).filterMap (matchRatio n g) = List.replicate ((sents.zip sents).filterMap (matchRatio n g)).length 1 := by
      rw [List.eq_replicate_iff]
      refine ⟨rfl, fun x hx => ?_⟩
      rw [hzz] at hx
      obtain ⟨p, hp, hpx⟩ := List.mem_filterMap.1 hx
      obtain ⟨s, _, rfl⟩ := List.mem_map.1 hp
      exact matchRatio_self hpx
    have hlen : ((sents.zip sents).filterMap (matchRatio n g)).length ≤ 2 ^ 53 := le_trans (List.length_filterMap_le _ _) (by simpa using hl)
    have hpos : ((sents.zip sents).filterMap (matchRatio n g)).length ≠ 0 := fun h => hne (List.length_eq_zero_iff.1 h)
    generalize ((sents.zip sents).filterMap (matchRatio n g)).length = m at *
    rw [hone, List.map_replicate, f1, hf.nat m hlen]
    have := flSum_ones hf m 0 (by omega)
    rw [flSum]
    simp only [Nat.cast_zero, Nat.zero_add] at this
    rw [this, div_self (by exact_mod_cast hpos), f1]
  have hsw : (sents.zip sents).map Prod.swap = sents.zip sents := List.zip_swap _ _
  obtain ⟨rep, h1, h2⟩ := countGramRecall_ok fl hn sents sents
  have hr : ∀ g v, Dict.get? rep.recalls g = some v → v = 1 := by
    intro g v h
    rw [h2.recall, hsw] at h
    split at h
    · cases h
    · rename_i hne
      rw [hmean g hne] at h
      simp only [Option.some.injEq] at h
      exact h.symm
  have hp : ∀ g v, Dict.get? rep.precisions g = some v → v = 1 := by
    intro g v h
    rw [h2.prec] at h
    split at h
    · cases h
    · rename_i hne
      rw [hmean g hne] at h
      simp only [Option.some.injEq] at h
      exact h.symm
  refine ⟨rep, h1, hr, hp, fun g hg => ?_⟩
  have hne : (sents.zip sents).filterMap (matchRatio n g) ≠ [] := by
    intro h0
    rw [hzz, List.filterMap_eq_nil_iff] at h0
    have : totalCount n sents g = 0 := by
      unfold totalCount
      rw [List.sum_eq_zero_iff]
      intro x hx
      obtain ⟨s, hs, rfl⟩ := List.mem_map.1 hx
      have := h0 (s, s) (List.mem_map.2 ⟨s, hs, rfl⟩)
      unfold matchRatio at this
      split at this
      · assumption
      · cases this
    omega
  rw [h2.recall, hsw, if_neg hne, hmean g hne, h2.prec, if_neg hne, hmean g hne]
  exact ⟨rfl, rfl⟩

end

/-- C58: F1 of two floats in [0, 1] is defined and lies in [0, 1], in every such arithmetic. -/
theorem C58_f1_range {fl : ℚ → ℚ} (hf : Rounding fl) {p r : ℚ} (hp : 0 ≤ p ∧ p ≤ 1) (hr : 0 ≤ r ∧ r ≤ 1) (hfp : fl p = p) :
    ∃ f, f1Measure fl p r = .ok f ∧ 0 ≤ f ∧ f ≤ 1 := by
  have f0 : fl 0 = 0 := by have := hf.nat 0 (by norm_num); simpa using this
  have f1 : fl 1 = 1 := by have := hf.nat 1 (by norm_num); simpa using this
  unfold f1Measure
  rw [if_pos hp, if_pos hr]
  simp only
  split
  · exact ⟨0, rfl, le_refl _, by norm_num⟩
  · rw [hf.dbl, hfp]
    have hden : 0 ≤ fl (p + r) := by rw [← f0]; exact hf.mono (by linarith [hp.1, hr.1])
    have hnum : 0 ≤ fl (2 * p * r) := by
      rw [← f0]
      exact hf.mono (mul_nonneg (by linarith [hp.1]) hr.1)
    refine ⟨_, rfl, ?_, ?_⟩
    · conv_lhs => rw [← f0]
      exact hf.mono (div_nonneg hnum hden)
    · conv_rhs => rw [← f1]
      refine hf.mono (div_le_one_of_le₀ (hf.mono ?_) hden)
      nlinarith [hp.1, hp.2, hr.1, hr.2, mul_nonneg hp.1 (sub_nonneg.2 hr.2), mul_nonneg hr.1 (sub_nonneg.2 hp.2)]

/-- C58: in exact arithmetic F1 lies between the smaller and the greater of its arguments, is symmetric, and is their harmonic mean. -/
theorem C58_f1_between_partial {p r : ℚ} (hp : 0 ≤ p ∧ p ≤ 1) (hr : 0 ≤ r ∧ r ≤ 1) :
    ∃ f, f1Measure (fun x => x) p r = .ok f ∧ min p r ≤ f ∧ f ≤ max p r ∧ f1Measure (fun x => x) r p = .ok f ∧
      (0 < p → 0 < r → 1 / f = (1 / p + 1 / r) / 2) := by
  unfold f1Measure
  rw [if_pos hp, if_pos hr, if_pos hr, if_pos hp, add_comm r p]
  simp only
  split
  · rename_i h0
    have hp0 : p = 0 := by linarith [hp.1, hr.1]
    have hr0 : r = 0 := by linarith [hp.1, hr.1]
    subst hp0 hr0
    exact ⟨0, rfl, by simp, by simp, rfl, fun h => absurd h (lt_irrefl _)⟩
  · rename_i h0
    have hs : 0 < p + r := lt_of_le_of_ne (by linarith [hp.1, hr.1]) (Ne.symm h0)
    refine ⟨_, rfl, ?_, ?_, by rw [show 2 * r * p = 2 * p * r by ring], fun h1 h2 => by field_simp; ring⟩
    · rw [le_div_iff₀ hs]
      rcases le_total p r with h | h
      · rw [min_eq_left h]; nlinarith [hp.1]
      · rw [min_eq_right h]; nlinarith [hr.1]
    · rw [div_le_iff₀ hs]
      rcases le_total p r with h | h
      · rw [max_eq_right h]; nlinarith [hp.1, hr.1]
      · rw [max_eq_left h]; nlinarith [hp.1, hr.1]

/-- C58: values outside [0, 1] are refused. -/
theorem C58_f1_refuses (fl : ℚ → ℚ) {p r : ℚ} (h : ¬ (0 ≤ p ∧ p ≤ 1) ∨ ¬ (0 ≤ r ∧ r ≤ 1)) : f1Measure fl p r = .error .assertion := by
  unfold f1Measure
  rcases h with h | h
  · rw [if_neg h]
  · rw [if_neg h]; split <;> rfl

/-- five sentences each, of which one is matched -/
def exGramCands : List (List Nat) := [[7], [7], [7], [7], [7], [], [], [], []]
def exGramRefs : List (List Nat) := [[7], [], [], [], [], [7], [7], [7], [7]]

/-- C58 is false of the code in one point: in binary64 F1 may be greater than both recall and precision (here both are 0.2 and F1
is 0.20000000000000004). -/
theorem C58_f1_above_max_refuted : ∃ rep p r f, countGramRecall rnd64 exGramCands exGramRefs 1 = .ok rep ∧ Dict.get? rep.precisions [7] = some p ∧
    Dict.get? rep.recalls [7] = some r ∧ f1Measure rnd64 p r = .ok f ∧ max p r < f := by
  have h : (match countGramRecall rnd64 exGramCands exGramRefs 1 with
    | .error _ => false
    | .ok rep => match Dict.get? rep.precisions [7], Dict.get? rep.recalls [7] with
      | some p, some r => match f1Measure rnd64 p r with
        | .ok f => decide (max p r < f)
        | .error _ => false
      | _, _ => false) = true := by decide +kernel
  cases hc : countGramRecall rnd64 exGramCands exGramRefs 1 with
  | error e => rw [hc] at h; cases h
  | ok rep =>
    rw [hc] at h
    simp only at h
    cases hp : Dict.get? rep.precisions [7] with
    | none => rw [hp] at h; cases h
    | some p =>
      cases hr : Dict.get? rep.recalls [7] with
      | none => rw [hp, hr] at h; cases h
      | some r =>
        rw [hp, hr] at h
        simp only at h
        cases hf : f1Measure rnd64 p r with
        | error e => rw [hf] at h; cases h
        | ok f => rw [hf] at h; exact ⟨rep, p, r, f, rfl, hp, hr, hf, of_decide_eq_true h⟩

example : (match countGramRecall (fun x => x) [[1, 1, 2], [1]] [[1, 3, 3], [1, 1]] 1 with
      | .ok rep => decide (Dict.get? rep.recalls [1] = some (3 / 4)) && decide (Dict.get? rep.precisions [1] = some (3 / 4)) && decide (Dict.get? rep.recalls [3] = some 0)
      | .error _ => false) = true := by decide +kernel

example : Rounding rnd64 ∧ rnd64 (1 / 10 + 2 / 10) ≠ 1 / 10 + 2 / 10 ∧ f1Measure (fun x => x) (1 / 2) 1 = .ok (2 / 3) := ⟨rnd64_rounding, by decide +kernel, by decide +kernel⟩

/-! ## C68 -/

theorem termFreqs_spec {inp : List Str} {toks : List (List Str)} (ht : List.Forall₂ Tokens inp toks) : ExactCounts toks (termFreqs inp) := by
  have key : ∀ {l : List Str} {ts : List (List Str)}, List.Forall₂ Tokens l ts → ∀ (pre : List (List Str)) (d : Dict Str Int), ExactCounts pre d →
      ExactCounts (pre ++ ts) (l.foldl (fun d line => Dict.count d (split (strip line))) d) := by
    intro l ts hts
    induction hts with
    | nil => intro pre d h; simpa using h
    | @cons line t l ts h1 h2 ih =>
      intro pre d h
      simp only [List.foldl_cons]
      rw [split_strip, split_of_tokens h1]
      have := ih (pre ++ [t]) (Dict.count d t) ⟨Dict.nodup_keys_count h.1 _, fun w => by
        have c1 := Dict.cnt_count d t w
        have c2 := Dict.mem_keys_count d t w
        rw [← List.count_pos_iff (l := t)] at c2
        have c3 : occurrences (pre ++ [t]) w = occurrences pre w + t.count w := by simp [occurrences]
        have c4 := h.2 w
        rw [c3]
        simp only [← Dict.isSome_get?_iff, Dict.cnt] at c1 c2
        generalize Dict.get? (Dict.count d t) w = o at c1 c2 ⊢
        by_cases h0 : occurrences pre w = 0
        · rw [if_pos h0] at c4
          rw [c4] at c1 c2
          rw [h0]
          cases o with
          | none => simp at c2; rw [if_pos (by rw [List.count_eq_zero.2 c2])]
          | some v => simp at c1 c2; rw [if_neg (by have := List.count_pos_iff.2 c2; omega), c1]; simp
        · rw [if_neg h0] at c4
          rw [c4] at c1 c2
          cases o with
          | none => simp at c2
          | some v => simp at c1; rw [if_neg (by omega), c1]; simp⟩
      simpa using this
  have := key ht [] [] ⟨by simp [Dict.keys], by simp [occurrences]⟩
  rw [List.nil_append] at this
  exact this

theorem get?_filter {κ υ : Type} [DecidableEq κ] {d : Dict κ υ} (hn : (Dict.keys d).Nodup) (p : κ → Bool) (k : κ) :
    Dict.get? (d.filter fun x => p x.1) k = if p k then Dict.get? d k else none := by
  induction d with
  | nil => simp
  | cons x d ih =>
    obtain ⟨a, v⟩ := x
    simp only [Dict.keys, List.map_cons, List.nodup_cons] at hn
    rw [List.filter_cons]
    by_cases ha : p a = true
    · simp only [ha, if_true, Dict.get?_cons, ih hn.2]
      by_cases hak : a = k
      · subst hak; simp [ha]
      · simp [hak]
    · simp only [ha, Bool.false_eq_true, if_false, Dict.get?_cons, ih hn.2]
      by_cases hak : a = k
      · subst hak; simp [ha]
      · simp [hak]

theorem nodup_keys_filter {κ υ : Type} {d : Dict κ υ} (hn : (Dict.keys d).Nodup) (p : κ × υ → Bool) : (Dict.keys (d.filter p)).Nodup :=
  hn.sublist (List.filter_sublist.map _)

/-- C68: the in-vocabulary part has the words of the vocabulary that occur, the other part the words that occur and are not in the
vocabulary, each with its number of occurrences; no word is in both; together they are the full table. -/
theorem C68_partition {inp : List Str} {toks : List (List Str)} (ht : List.Forall₂ Tokens inp toks) (vocab : List Str) :
    ((partitionVocabToks inp vocab).1 ++ (partitionVocabToks inp vocab).2).Perm (termFreqs inp) ∧
    (Dict.keys ((partitionVocabToks inp vocab).1 ++ (partitionVocabToks inp vocab).2)).Nodup ∧
    (∀ w, Dict.get? (partitionVocabToks inp vocab).1 w = if w ∈ vocab ∧ 0 < occurrences toks w then some (occurrences toks w : ℤ) else none) ∧
    (∀ w, Dict.get? (partitionVocabToks inp vocab).2 w = if w ∉ vocab ∧ 0 < occurrences toks w then some (occurrences toks w : ℤ) else none) := by
  have hs := termFreqs_spec ht
  have hperm : ((partitionVocabToks inp vocab).1 ++ (partitionVocabToks inp vocab).2).Perm (termFreqs inp) :=
    List.filter_append_perm (fun p : Str × Int => vocab.contains p.1) (termFreqs inp)
  refine ⟨hperm, ((hperm.map _).nodup_iff).2 hs.1, fun w => ?_, fun w => ?_⟩
  · simp only [partitionVocabToks]
    rw [get?_filter hs.1 (fun k => vocab.contains k), hs.2]
    by_cases hw : w ∈ vocab
    · by_cases h0 : occurrences toks w = 0
      · simp [hw, h0]
      · simp [hw, h0, Nat.pos_of_ne_zero h0]
    · simp [hw]
  · simp only [partitionVocabToks]
    rw [get?_filter hs.1 (fun k => !vocab.contains k), hs.2]
    by_cases hw : w ∈ vocab
    · simp [hw]
    · by_cases h0 : occurrences toks w = 0
      · simp [hw, h0]
      · simp [hw, h0, Nat.pos_of_ne_zero h0]

/-- the sum of the counts is the number of tokens -/
theorem termFreqs_total {inp : List Str} {toks : List (List Str)} (ht : List.Forall₂ Tokens inp toks) :
    isum (Dict.values (termFreqs inp)) = (toks.flatten.length : ℤ) := by
  have hcount : ∀ (xs : List Str) (d : Dict Str Int), isum (Dict.values (Dict.count d xs)) = isum (Dict.values d) + xs.length := by
    have hincr : ∀ (d : Dict Str Int) (x : Str), isum (Dict.values (Dict.incr d x 1)) = isum (Dict.values d) + 1 := by
      intro d x
      simp only [Dict.incr]
      induction d with
      | nil => simp [Dict.set, Dict.values, isum]
      | cons p d ih =>
        obtain ⟨k, v⟩ := p
        simp only [Dict.get?_cons, Dict.set]
        by_cases h : k = x
        · simp only [h, if_true, Option.getD_some, Dict.values, List.map_cons, isum, List.foldr_cons]; ring
        · simp only [h, if_false, Dict.values, List.map_cons, isum, List.foldr_cons] at ih ⊢
          rw [ih]; ring
    intro xs
    induction xs with
    | nil => intro d; simp [Dict.count]
    | cons x xs ih =>
      intro d
      have : Dict.count d (x :: xs) = Dict.count (Dict.incr d x 1) xs := rfl
      rw [this, ih, hincr, List.length_cons]
      push_cast; ring
  have key : ∀ {l : List Str} {ts : List (List Str)}, List.Forall₂ Tokens l ts → ∀ d : Dict Str Int,
      isum (Dict.values (l.foldl (fun d line => Dict.count d (split (strip line))) d)) = isum (Dict.values d) + (ts.flatten.length : ℤ) := by
    intro l ts hts
    induction hts with
    | nil => intro d; simp
    | @cons line t l ts h1 h2 ih =>
      intro d
      simp only [List.foldl_cons]
      rw [ih, split_strip, split_of_tokens h1, hcount, List.flatten_cons, List.length_append]
      push_cast; ring
  have := key ht []
  simpa [termFreqs, Dict.values, isum] using this

/-- C68: the printed numbers: the token counts add up to the number of tokens of the corpus, the types to the number of distinct words,
and (in exact arithmetic) the percentages to 100.  A corpus without tokens raises ZeroDivisionError. -/
theorem C68_report {s : Scheme} (hk : s.kind ≠ .byte) {inp : List Str} {toks : List (List Str)} (ht : List.Forall₂ Tokens inp toks) :
    (toks.flatten = [] → oovMain (fun x => x) s inp = .error .zeroDiv) ∧
    (toks.flatten ≠ [] → ∃ a b x y u v, oovMain (fun x => x) s inp = .ok ((a, b), (x, y), (u, v)) ∧ x + y = (toks.flatten.length : ℤ) ∧
      a + b = toks.flatten.dedup.length ∧ u + v = 100) := by
  obtain ⟨h1, h2, h3, h4⟩ := C68_partition ht (Dict.keys s.s2i)
  have hsum : isum (Dict.values (partitionVocabToks inp (Dict.keys s.s2i)).1) + isum (Dict.values (partitionVocabToks inp (Dict.keys s.s2i)).2) = (toks.flatten.length : ℤ) := by
    rw [← termFreqs_total ht, ← isum_append]
    refine isum_perm ?_
    have := h1.map (fun p : Str × Int => p.2)
    simpa [Dict.values] using this
  have hs := termFreqs_spec ht
  have hocc : ∀ w, w ∈ toks.flatten ↔ occurrences toks w ≠ 0 := by
    intro w
    unfold occurrences
    rw [ne_eq, List.sum_eq_zero_iff]
    simp only [List.mem_flatten, List.mem_map, forall_exists_index, and_imp, forall_apply_eq_imp_iff₂, List.count_eq_zero, not_forall, not_not]
    constructor
    · rintro ⟨l, a, b⟩; exact ⟨l, a, b⟩
    · rintro ⟨l, a, b⟩; exact ⟨l, a, b⟩
  have htypes : (partitionVocabToks inp (Dict.keys s.s2i)).1.length + (partitionVocabToks inp (Dict.keys s.s2i)).2.length = toks.flatten.dedup.length := by
    rw [← List.length_append, h1.length_eq]
    have : (Dict.keys (termFreqs inp)).Perm toks.flatten.dedup := by
      rw [List.perm_ext_iff_of_nodup hs.1 (List.nodup_dedup _)]
      intro w
      rw [List.mem_dedup, hocc, ← Dict.isSome_get?_iff, hs.2]
      by_cases h0 : occurrences toks w = 0 <;> simp [h0]
    have := this.length_eq
    simpa [Dict.keys] using this
  constructor
  · intro h0
    rw [h0] at hsum
    simp only [List.length_nil, Nat.cast_zero] at hsum
    simp only [oovMain, ne_eq, hk, not_false_eq_true, if_true, hsum]
  · intro hne
    have hpos : (toks.flatten.length : ℤ) ≠ 0 := by
      rw [ne_eq, Nat.cast_eq_zero, List.length_eq_zero_iff]; exact hne
    refine ⟨_, _, _, _, _, _, by simp only [oovMain, ne_eq, hk, not_false_eq_true, if_true, hsum, hpos, if_false]; rfl, hsum, htypes, ?_⟩
    have hq : ((toks.flatten.length : ℤ) : ℚ) ≠ 0 := by exact_mod_cast hpos
    have hsq : (isum (Dict.values (partitionVocabToks inp (Dict.keys s.s2i)).1) : ℚ) + (isum (Dict.values (partitionVocabToks inp (Dict.keys s.s2i)).2) : ℚ) = ((toks.flatten.length : ℤ) : ℚ) := by
      exact_mod_cast hsum
    rw [← add_div, ← mul_add, hsq, mul_div_assoc, div_self hq, mul_one]

example : partitionVocabToks [lit "a b a", lit " c  a\n"] [lit "a", lit "z"] = ([(lit "a", 3)], [(lit "b", 1), (lit "c", 1)]) := by decide +kernel

/-! ## C74 -/

theorem newGramNames_ok {table : List Ty} : ∀ {gs : List (List Int)}, (∀ g ∈ gs, g.length = 1 ∧ ∀ i ∈ g, ∃ t, pyIndex table i = .ok t) → newGramNames table gs = .ok ()
  | [], _ => rfl
  | g :: gs, h => by
    obtain ⟨h1, h2⟩ := h g (by simp)
    obtain ⟨i, rfl⟩ := List.length_eq_one_iff.1 h1
    obtain ⟨t, ht⟩ := h2 i (by simp)
    have : pyIndex [i] 0 = .ok i := rfl
    simp only [newGramNames, this, ht]
    exact newGramNames_ok fun g hg => h g (by simp [hg])

theorem namesOf_ok {table : List Ty} : ∀ {g : List Int}, (∀ i ∈ g, ∃ t, pyIndex table i = .ok t) → ∃ ns, namesOf table g = .ok ns
  | [], _ => ⟨[], rfl⟩
  | i :: g, h => by
    obtain ⟨t, ht⟩ := h i (by simp)
    obtain ⟨ns, hns⟩ := namesOf_ok (g := g) fun i hi => h i (by simp [hi])
    exact ⟨t.name :: ns, by simp only [namesOf, ht, hns]⟩

theorem prRows_ok {fl : ℚ → ℚ} {table : List Ty} {rep : GramReport Int} (hf1 : ∀ g, ∃ f, f1Measure fl ((Dict.get? rep.precisions g).getD 1) ((Dict.get? rep.recalls g).getD 0) = .ok f) :
    ∀ (l : List (List Int × Int)) (i : ℕ), (∀ p ∈ l, ∃ ns, namesOf table p.1 = .ok ns) → ∃ rows, prRows fl table rep l i = .ok rows ∧
      rows.map (·.rank) = List.range' (i + 1) l.length ∧ rows.map (fun r => (r.gram, r.rankFreq)) = l ∧
      ∀ r ∈ rows, (∃ ns, namesOf table r.gram = .ok ns ∧ r.name = join [44] ns) ∧ r.refFreq = (Dict.get? rep.refFreqs r.gram).getD (-1) ∧
        r.candFreq = (Dict.get? rep.candFreqs r.gram).getD (-1) ∧ r.recall = (Dict.get? rep.recalls r.gram).getD 0 ∧
        r.precision = (Dict.get? rep.precisions r.gram).getD 1 ∧ f1Measure fl r.precision r.recall = .ok r.f1
  | [], i, _ => ⟨[], rfl, rfl, rfl, by simp⟩
  | (g, f) :: l, i, h => by
    obtain ⟨ns, hns⟩ := h (g, f) (by simp)
    obtain ⟨f1, hf⟩ := hf1 g
    obtain ⟨rows, a1, a2, a3, a4⟩ := prRows_ok hf1 l (i + 1) fun p hp => h p (by simp [hp])
    refine ⟨_, by simp only [prRows, hns, hf, a1]; rfl, ?_, ?_, ?_⟩
    · simp only [List.map_cons, a2, List.length_cons, List.range'_succ]
    · simp only [List.map_cons, a3]
    · intro r hr
      rcases List.mem_cons.1 hr with rfl | hr
      · exact ⟨⟨ns, hns, rfl⟩, rfl, rfl, rfl, rfl, hf⟩
      · exact a4 r hr

theorem mem_of_gramCount {n : ℕ} {sent g : List Int} (h : gramCount n sent g ≠ 0) : g.length = n ∧ ∀ i ∈ g, i ∈ sent := by
  unfold gramCount at h
  split at h
  · rename_i hl
    refine ⟨hl, fun i hi => ?_⟩
    obtain ⟨j, hj⟩ := List.exists_mem_of_length_pos (Nat.pos_of_ne_zero h)
    rw [List.mem_filter] at hj
    exact List.drop_subset _ _ ((of_decide_eq_true hj.2).subset hi)
  · exact absurd rfl h

theorem mem_of_totalCount {n : ℕ} {sents : List (List Int)} {g : List Int} (h : totalCount n sents g ≠ 0) : g.length = n ∧ ∀ i ∈ g, ∃ s ∈ sents, i ∈ s := by
  unfold totalCount at h
  rw [ne_eq, List.sum_eq_zero_iff] at h
  simp only [List.mem_map, forall_exists_index, and_imp, forall_apply_eq_imp_iff₂, not_forall] at h
  obtain ⟨s, hs, hg⟩ := h
  obtain ⟨a, b⟩ := mem_of_gramCount hg
  exact ⟨a, fun i hi => ⟨s, hs, b i hi⟩⟩

/-- C74, what holds: whatever `n` is asked for, without `--freqs` the table has one row for every type of the references (1-gram), ranked
by decreasing frequency, with its frequencies, recall, precision and F1.  Missing: rows for n-grams with `n > 1`. -/
theorem C74_unigram_table_partial {fl : ℚ → ℚ} (hf : Rounding fl) {s : Scheme} {cands refs : List Str} {cs rs : List (List Int)}
    (hc : List.Forall₂ (fun line ids => s.encode line = .ok ids) cands cs) (hr : List.Forall₂ (fun line ids => s.encode line = .ok ids) refs rs)
    (hl : cands.length = refs.length) (hlen : cands.length ≤ 2 ^ 53) (hidx : ∀ ids ∈ cs ++ rs, ∀ i ∈ ids, ∃ t, pyIndex s.table i = .ok t)
    {nCpus : ℤ} (hn : 2 ≤ nCpus) {done : List (Nat × Py (List (List Int))) → List (Nat × Py (List (List Int)))} (hd : ∀ r, (done r).Perm r) (n : ℤ) :
    ∃ rows rep, prMain fl s nCpus done cands refs n none = .ok rows ∧ countGramRecall fl cs rs 1 = .ok rep ∧
      rows.map (·.rank) = List.range' 1 rows.length ∧ (rows.map (·.gram)).Nodup ∧ (∀ g, g ∈ rows.map (·.gram) ↔ 0 < totalCount 1 rs g) ∧
      rows.Pairwise (fun a b => b.refFreq ≤ a.refFreq) ∧
      ∀ r ∈ rows, r.gram.length = 1 ∧ r.rankFreq = (totalCount 1 rs r.gram : ℤ) ∧ r.refFreq = (totalCount 1 rs r.gram : ℤ) ∧
        r.candFreq = (if totalCount 1 cs r.gram = 0 then -1 else (totalCount 1 cs r.gram : ℤ)) ∧
        r.recall = (Dict.get? rep.recalls r.gram).getD 0 ∧ r.precision = (Dict.get? rep.precisions r.gram).getD 1 ∧
        (0 ≤ r.recall ∧ r.recall ≤ 1) ∧ (0 ≤ r.precision ∧ r.precision ≤ 1) ∧ f1Measure fl r.precision r.recall = .ok r.f1 ∧ 0 ≤ r.f1 ∧ r.f1 ≤ 1 := by
  have f1 : fl 1 = 1 := by have := hf.nat 1 (by norm_num); simpa using this
  have hlcs : cs.length = rs.length := by rw [← hc.length_eq, ← hr.length_eq, hl]
  have hz1 : (cs.zip rs).map (·.1) = cs := List.map_fst_zip (by omega)
  have hz2 : (cs.zip rs).map (·.2) = rs := List.map_snd_zip (by omega)
  have hzl : (cs.zip rs).length ≤ 2 ^ 53 := by rw [List.length_zip, ← hlcs, min_self, ← hc.length_eq]; exact hlen
  obtain ⟨rep, h1, h2⟩ := countGramRecall_ok fl (n := 1) (by omega) cs rs
  obtain ⟨rep', h1', hrange⟩ := C58_range hf cs rs hzl (n := 1) (by omega)
  rw [h1] at h1'
  cases h1'
  have hrefs := h2.refs
  have hcands := h2.cands
  rw [hz2] at hrefs
  rw [hz1] at hcands
  have hrec : ∀ g, 0 ≤ (Dict.get? rep.recalls g).getD 0 ∧ (Dict.get? rep.recalls g).getD 0 ≤ 1 := by
    intro g
    cases hg : Dict.get? rep.recalls g with
    | none => simp
    | some v => exact ⟨(hrange.1 g v hg).1, (hrange.1 g v hg).2.1⟩
  have hprec : ∀ g, (0 ≤ (Dict.get? rep.precisions g).getD 1 ∧ (Dict.get? rep.precisions g).getD 1 ≤ 1) ∧ fl ((Dict.get? rep.precisions g).getD 1) = (Dict.get? rep.precisions g).getD 1 := by
    intro g
    cases hg : Dict.get? rep.precisions g with
    | none => simp [f1]
    | some v => exact ⟨⟨(hrange.2 g v hg).1, (hrange.2 g v hg).2.1⟩, (hrange.2 g v hg).2.2⟩
  have hf1 : ∀ g, ∃ f, f1Measure fl ((Dict.get? rep.precisions g).getD 1) ((Dict.get? rep.recalls g).getD 0) = .ok f ∧ 0 ≤ f ∧ f ≤ 1 := fun g =>
    C58_f1_range hf (hprec g).1 (hrec g) (hprec g).2
  have hmem : ∀ g, g ∈ Dict.keys rep.refFreqs ↔ 0 < totalCount 1 rs g := by
    intro g
    rw [← Dict.isSome_get?_iff, hrefs]
    by_cases h0 : totalCount 1 rs g = 0
    · simp [h0]
    · simp [h0, Nat.pos_of_ne_zero h0]
  have hperm := List.perm_insertionSort (fun a b : List Int × Int => b.2 ≤ a.2) rep.refFreqs
  obtain ⟨rows, a1, a2, a3, a4⟩ := prRows_ok (table := s.table) (fun g => (hf1 g).imp fun _ h => h.1) (rep.refFreqs.insertionSort fun a b => b.2 ≤ a.2) 0 (by
    intro p hp
    have : p.1 ∈ Dict.keys rep.refFreqs := List.mem_map.2 ⟨p, hperm.mem_iff.1 hp, rfl⟩
    rw [hmem] at this
    refine namesOf_ok fun i hi => ?_
    obtain ⟨ids, hids, hi'⟩ := (mem_of_totalCount (by omega : totalCount 1 rs p.1 ≠ 0)).2 i hi
    exact hidx ids (by simp [hids]) i hi')
  have hgrams : (rows.map (·.gram)).Perm (Dict.keys rep.refFreqs) := by
    have h3 : rows.map (·.gram) = (rep.refFreqs.insertionSort fun a b => b.2 ≤ a.2).map (·.1) := by rw [← a3, List.map_map]; rfl
    rw [h3]
    exact hperm.map _
  have hget : ∀ r ∈ rows, Dict.get? rep.refFreqs r.gram = some r.rankFreq := by
    intro r hr
    have : (r.gram, r.rankFreq) ∈ rep.refFreqs := by
      rw [← hperm.mem_iff, ← a3]
      exact List.mem_map.2 ⟨r, hr, rfl⟩
    exact Dict.get?_of_mem h2.refs_nodup this
  have hmain : prMain fl s nCpus done cands refs n none = .ok rows := by
    have p1 := C56_sequential hc hn (show (1 : ℤ) ≤ 1000 by omega) hd
    have p2 := C56_sequential hr hn (show (1 : ℤ) ≤ 1000 by omega) hd
    have hng : newGramNames s.table ((Dict.keys rep.candFreqs).filter fun g => !Dict.mem (rankFreqs rep none) g) = .ok () := by
      refine newGramNames_ok fun g hg => ?_
      have hg := (List.mem_filter.1 hg).1
      rw [← Dict.isSome_get?_iff, hcands] at hg
      have h0 : totalCount 1 cs g ≠ 0 := by
        intro h0; rw [if_pos h0] at hg; cases hg
      obtain ⟨b1, b2⟩ := mem_of_totalCount h0
      refine ⟨b1, fun i hi => ?_⟩
      obtain ⟨ids, hids, hi'⟩ := b2 i hi
      exact hidx ids (by simp [hids]) i hi'
    have h1' : countGramRecall fl cs rs 1 = .ok rep := h1
    simp only [prMain, hl, if_true, p1, p2, Gen.toList, h1', hng]
    split
    · rename_i e he; split at he <;> cases he
    · exact a1
  refine ⟨rows, rep, hmain, h1, ?_, hgrams.nodup_iff.2 h2.refs_nodup, fun g => by rw [hgrams.mem_iff, hmem], ?_, ?_⟩
  · rw [a2, ← a3, List.length_map]
  · have hs : (rows.map fun r => (r.gram, r.rankFreq)).Pairwise (fun a b : List Int × Int => b.2 ≤ a.2) := by
      rw [a3]
      exact List.pairwise_insertionSort (fun a b : List Int × Int => b.2 ≤ a.2) rep.refFreqs
    rw [List.pairwise_map] at hs
    refine hs.imp_of_mem fun {a b} ha hb h => ?_
    rw [(a4 a ha).2.1, (a4 b hb).2.1, hget a ha, hget b hb]
    exact h
  · intro r hr
    obtain ⟨_, b2, b3, b4, b5, b6⟩ := a4 r hr
    have hg := hget r hr
    have h0 : 0 < totalCount 1 rs r.gram := (hmem _).1 (by rw [← Dict.isSome_get?_iff, hg]; rfl)
    rw [hrefs, if_neg (by omega)] at hg
    simp only [Option.some.injEq] at hg
    refine ⟨(mem_of_totalCount (by omega : totalCount 1 rs r.gram ≠ 0)).1, hg.symm, ?_, ?_, b4, b5, b4 ▸ hrec _, b5 ▸ (hprec _).1, b6, ?_⟩
    · rw [b2, hrefs, if_neg (by omega)]; rfl
    · rw [b3, hcands]
      split <;> rfl
    · obtain ⟨f, c1, c2⟩ := hf1 r.gram
      rw [b4, b5, c1] at b6
      cases b6
      exact c2

/-- C74: a candidate or reference line that cannot be encoded is not passed over: its exception, or that of another such line, is raised. -/
theorem C74_exception (fl : ℚ → ℚ) {s : Scheme} {cands refs : List Str} (he : ∃ line ∈ cands ++ refs, ∃ e, s.encode line = .error e)
    (hl : cands.length = refs.length) {nCpus : ℤ} (hn : 2 ≤ nCpus) {done : List (Nat × Py (List (List Int))) → List (Nat × Py (List (List Int)))}
    (hd : ∀ r, (done r).Perm r) (n : ℤ) (freqs : Option (List (List Int × Int))) :
    ∃ e, prMain fl s nCpus done cands refs n freqs = .error e ∧ ∃ line ∈ cands ++ refs, s.encode line = .error e := by
  by_cases hc : ∃ line ∈ cands, ∃ e, s.encode line = .error e
  · obtain ⟨e, h1, line, h2, h3⟩ := C56_exception hc hn (by omega : (1 : ℤ) ≤ 1000) hd
    exact ⟨e, by simp only [prMain, hl, if_true, Gen.toList, h1], line, by simp [h2], h3⟩
  · have hr : ∃ line ∈ refs, ∃ e, s.encode line = .error e := by
      obtain ⟨line, hm, e, h⟩ := he
      rcases List.mem_append.1 hm with hm | hm
      · exact absurd ⟨line, hm, e, h⟩ hc
      · exact ⟨line, hm, e, h⟩
    have hok : ∀ line ∈ cands, ∃ ids, s.encode line = .ok ids := by
      intro line hm
      cases h : s.encode line with
      | error e => exact absurd ⟨line, hm, e, h⟩ hc
      | ok ids => exact ⟨ids, rfl⟩
    obtain ⟨cs, hcs⟩ : ∃ cs, List.Forall₂ (fun line ids => s.encode line = .ok ids) cands cs := by
      clear * - hok
      induction cands with
      | nil => exact ⟨[], .nil⟩
      | cons l ls ih =>
        obtain ⟨cs, h⟩ := ih (fun line hm => hok line (by simp [hm]))
        obtain ⟨c, hc⟩ := hok l (by simp)
        exact ⟨c :: cs, .cons hc h⟩
    obtain ⟨e, h1, line, h2, h3⟩ := C56_exception hr hn (by omega : (1 : ℤ) ≤ 1000) hd
    have p1 := C56_sequential hcs hn (by omega : (1 : ℤ) ≤ 1000) hd
    exact ⟨e, by simp only [prMain, hl, if_true, Gen.toList, p1, h1], line, by simp [h2], h3⟩

/-- C74 is false of the code: with `-n 2` there is no row for the 2-gram of the references, only rows for single types. -/
theorem C74_n_ignored_refuted : ∃ (s : Scheme) (rs : List (List Int)) (rows : List PrRow), Scheme.make .word (exTable 1 ["a", "b"]) = .ok s ∧
    [lit "a b"].mapM s.encode = .ok rs ∧ prMain rnd64 s 2 (fun r => r) [lit "a b"] [lit "a b"] 2 none = .ok rows ∧ 0 < totalCount 2 rs [6, 7] ∧
    ∀ r ∈ rows, r.gram.length = 1 := by
  have h : (match Scheme.make .word (exTable 1 ["a", "b"]) with
    | .error _ => false
    | .ok s => match [lit "a b"].mapM s.encode, prMain rnd64 s 2 (fun r => r) [lit "a b"] [lit "a b"] 2 none with
      | .ok rs, .ok rows => decide (0 < totalCount 2 rs [6, 7]) && decide (∀ r ∈ rows, r.gram.length = 1)
      | _, _ => false) = true := by decide +kernel
  cases hs : Scheme.make .word (exTable 1 ["a", "b"]) with
  | error e => rw [hs] at h; cases h
  | ok s =>
    rw [hs] at h
    simp only at h
    cases hr : [lit "a b"].mapM s.encode with
    | error e => rw [hr] at h; cases h
    | ok rs =>
      cases hp : prMain rnd64 s 2 (fun r => r) [lit "a b"] [lit "a b"] 2 none with
      | error e => rw [hr, hp] at h; cases h
      | ok rows =>
        rw [hr, hp] at h
        simp only [Bool.and_eq_true, decide_eq_true_eq] at h
        exact ⟨s, rs, rows, rfl, hr, hp, h.1, h.2⟩

/-- C74: with `--freqs` the rows are the grams of the references and those of the file that occur in references or candidates; a gram of the
references that is not in the file is ranked with -1. -/
theorem C74_freqs_rows (rep : GramReport Int) (fs : List (List Int × Int)) (g : List Int) :
    g ∈ Dict.keys (rankFreqs rep (some fs)) ↔ g ∈ Dict.keys rep.refFreqs ∨ (g ∈ fs.map (·.1) ∧ g ∈ Dict.keys rep.candFreqs) := by
  have hft : ∀ (l : List (List Int × Int)) (d : Dict (List Int) Int), g ∈ Dict.keys (l.foldl (fun d p => Dict.set d p.1 p.2) d) ↔ g ∈ Dict.keys d ∨ g ∈ l.map (·.1) := by
    intro l
    induction l with
    | nil => intro d; simp
    | cons p l ih =>
      intro d
      simp only [List.foldl_cons, ih, Dict.keys_set, List.map_cons, List.mem_cons]
      split
      · rename_i h
        constructor
        · rintro (h | h) <;> simp [h]
        · rintro (h' | rfl | h') <;> simp [*]
      · simp only [List.mem_append, List.mem_singleton]; tauto
  have hkf : ∀ g, g ∈ Dict.keys ((freqTable fs).filter fun p => Dict.mem rep.refFreqs p.1 || Dict.mem rep.candFreqs p.1) ↔
      g ∈ Dict.keys (freqTable fs) ∧ (g ∈ Dict.keys rep.refFreqs ∨ g ∈ Dict.keys rep.candFreqs) := by
    intro g
    simp only [Dict.keys, List.mem_map, List.mem_filter, Bool.or_eq_true, Dict.mem_iff]
    constructor
    · rintro ⟨p, ⟨h1, h2⟩, rfl⟩; exact ⟨⟨p, h1, rfl⟩, by simpa [Dict.keys] using h2⟩
    · rintro ⟨⟨p, h1, rfl⟩, h2⟩; exact ⟨p, ⟨h1, by simpa [Dict.keys] using h2⟩, rfl⟩
  have hft' : g ∈ Dict.keys (freqTable fs) ↔ g ∈ fs.map (·.1) := by
    have := hft fs []
    simpa [freqTable, Dict.keys] using this
  have happ : ∀ (a b : Dict (List Int) Int), Dict.keys (a ++ b) = Dict.keys a ++ Dict.keys b := fun a b => by simp [Dict.keys]
  simp only [rankFreqs, happ, List.mem_append]
  rw [hkf, hft']
  have hk2 : ∀ l : List (List Int), Dict.keys (l.map fun g => (g, (-1 : ℤ))) = l := fun l => by simp [Dict.keys, Function.comp_def]
  rw [hk2, List.mem_filter, Bool.not_eq_true', ← Bool.not_eq_true, Dict.mem_iff, hkf, hft']
  tauto

example : (withScheme .word (exTable 1 ["a", "b"]) fun s => prMain (fun x => x) s 2 (fun r => r) [lit "a a", lit "b"] [lit "a b", lit "b z"] 5 none) =
    .ok [⟨1, [7], lit "b", 2, 2, 1, 1 / 2, 1, 2 / 3⟩, ⟨2, [6], lit "a", 1, 1, 2, 1, 1 / 2, 2 / 3⟩, ⟨3, [1], lit "<unk>", 1, 1, -1, 0, 1, 0⟩] := by decide +kernel

end Verif
