import Verif.Lemmas.Rounding
import Verif.Lemmas.Dict
import Verif.Lemmas.Str
import Verif.Spec.Grams
import Verif.Lemmas.Multipart
/-!
# Lemmas on n-grams, recall and precision
-/

namespace Verif
open Spec

section
variable {α : Type} [DecidableEq α]

theorem windows_count {n : ℕ} (hn : 0 < n) (sent g : List α) :
    ((List.range (sent.length + 1 - n)).map fun i => (sent.drop i).take n).count g = gramCount n sent g := by
  unfold gramCount
  rw [List.count, List.countP_map]
  split
  · rename_i hg
    rw [← List.countP_eq_length_filter]
    by_cases hlen : n ≤ sent.length
    · have hsplit : List.range (sent.length + 1) = List.range (sent.length + 1 - n) ++ (List.range n).map (sent.length + 1 - n + ·) := by
        rw [← List.range_add]
        congr 1
        omega
      rw [hsplit, List.countP_append]
      have hz : ((List.range n).map (sent.length + 1 - n + ·)).countP (fun i => decide (g <+: sent.drop i)) = 0 := by
        rw [List.countP_eq_zero]
        intro i hi
        simp only [List.mem_map, List.mem_range] at hi
        obtain ⟨j, hj, rfl⟩ := hi
        simp only [decide_eq_true_eq]
        intro h
        have := h.length_le
        rw [List.length_drop] at this
        omega
      rw [hz, Nat.add_zero]
      refine List.countP_congr fun i hi => ?_
      rw [List.mem_range] at hi
      simp only [Function.comp, beq_iff_eq, decide_eq_true_eq]
      rw [List.prefix_iff_eq_take, hg]
      exact eq_comm
    · have h0 : sent.length + 1 - n = 0 := by omega
      rw [h0]
      simp only [List.range_zero, List.countP_nil]
      symm
      rw [List.countP_eq_zero]
      intro i hi
      simp only [decide_eq_true_eq]
      intro h
      have := h.length_le
      rw [List.length_drop] at this
      omega
  · rename_i hg
    rw [List.countP_eq_zero]
    intro i hi
    rw [List.mem_range] at hi
    simp only [Function.comp, beq_iff_eq]
    intro h
    apply hg
    rw [← h, List.length_take, List.length_drop]
    omega

/-- the counter of the grams of a sentence -/
theorem gramDict {n : ℕ} (hn : 0 < n) (sent : List α) : ∃ gs, makeNGrams sent n = .ok gs ∧ (Dict.keys (Dict.count ([] : Dict (List α) Int) gs)).Nodup ∧
    (∀ g, Dict.get? (Dict.count ([] : Dict (List α) Int) gs) g = if gramCount n sent g = 0 then none else some (gramCount n sent g : ℤ)) := by
  refine ⟨_, by rw [makeNGrams, if_pos (by exact_mod_cast hn)], Dict.nodup_keys_count (by simp [Dict.keys]) _, fun g => ?_⟩
  have h1 := Dict.cnt_count ([] : Dict (List α) Int) ((List.range (sent.length + 1 - n)).map fun i => (sent.drop i).take n) g
  have h2 := Dict.mem_keys_count ([] : Dict (List α) Int) ((List.range (sent.length + 1 - n)).map fun i => (sent.drop i).take n) g
  rw [← List.count_pos_iff (l := List.map _ _), windows_count hn] at h2
  rw [windows_count hn] at h1
  simp only [Int.toNat_natCast]
  generalize Dict.count ([] : Dict (List α) Int) ((List.range (sent.length + 1 - n)).map fun i => (sent.drop i).take n) = d at *
  cases hg : Dict.get? d g with
  | none =>
    have : g ∉ Dict.keys d := (Dict.get?_eq_none_iff d g).1 hg
    rw [h2] at this
    simp only [Dict.keys, List.map_nil, List.not_mem_nil, false_or] at this
    rw [if_pos (by omega)]
  | some v =>
    have : g ∈ Dict.keys d := by rw [← Dict.isSome_get?_iff, hg]; rfl
    rw [h2] at this
    simp only [Dict.keys, List.map_nil, List.not_mem_nil, false_or] at this
    rw [if_neg (by omega)]
    simp only [Dict.cnt, hg, Option.getD_some, Dict.get?_nil, Option.getD_none, zero_add] at h1
    rw [h1]

theorem gramLoop_ok (fl : ℚ → ℚ) (other : Dict (List α) Int) : ∀ (own : List (List α × Int)) (acc : GramAcc α), (Dict.keys own).Nodup → (∀ p ∈ own, 0 < p.2) →
    (Dict.keys acc.1).Nodup → (Dict.keys acc.2).Nodup →
    ∃ acc', gramLoop fl other own acc = .ok acc' ∧ (Dict.keys acc'.1).Nodup ∧ (Dict.keys acc'.2).Nodup ∧
      (∀ g, Dict.get? acc'.1 g = match Dict.get? own g with
        | none => Dict.get? acc.1 g
        | some f => some ((Dict.get? acc.1 g).getD [] ++ [fl ((min ((Dict.get? other g).getD 0) f : ℤ) / (f : ℚ))])) ∧
      (∀ g, Dict.get? acc'.2 g = match Dict.get? own g with
        | none => Dict.get? acc.2 g
        | some f => some ((Dict.get? acc.2 g).getD 0 + f)) := by
  intro own
  induction own with
  | nil => intro acc _ _ h3 h4; exact ⟨acc, rfl, h3, h4, fun g => rfl, fun g => rfl⟩
  | cons p own ih =>
    obtain ⟨k, f⟩ := p
    intro acc h1 h2 h3 h4
    have hk : k ∉ Dict.keys own := by
      simp only [Dict.keys, List.map_cons, List.nodup_cons] at h1
      exact h1.1
    have h1' : (Dict.keys own).Nodup := by
      simp only [Dict.keys, List.map_cons, List.nodup_cons] at h1
      exact h1.2
    obtain ⟨acc', a1, a2, a3, a4, a5⟩ := ih (Dict.set acc.1 k ((Dict.get? acc.1 k).getD [] ++ [fl ((min ((Dict.get? other k).getD 0) f : ℤ) / (f : ℚ))]), Dict.incr acc.2 k f)
      h1' (fun p hp => h2 p (by simp [hp])) (Dict.nodup_keys_set h3 _ _) (Dict.nodup_keys_incr h4 _ _)
    refine ⟨acc', ?_, a2, a3, fun g => ?_, fun g => ?_⟩
    · rw [gramLoop, if_pos (h2 (k, f) (by simp))]
      exact a1
    · rw [a4, Dict.get?_cons]
      by_cases hkg : k = g
      · subst hkg
        rw [(Dict.get?_eq_none_iff own k).2 hk, if_pos rfl]
        simp only [Dict.get?_set_self]
      · rw [if_neg hkg]
        simp only [Dict.get?_set_ne _ _ hkg]
    · rw [a5, Dict.get?_cons]
      by_cases hkg : k = g
      · subst hkg
        rw [(Dict.get?_eq_none_iff own k).2 hk, if_pos rfl]
        simp only [Dict.get?_incr, if_true]
      · rw [if_neg hkg]
        simp only [Dict.get?_incr, if_neg hkg]

/-- what an accumulator holds after the pairs `(own, other)` -/
structure AccInv (fl : ℚ → ℚ) (n : ℕ) (pairs : List (List α × List α)) (acc : GramAcc α) : Prop where
  nd1 : (Dict.keys acc.1).Nodup
  nd2 : (Dict.keys acc.2).Nodup
  ratios : ∀ g, Dict.get? acc.1 g = if pairs.filterMap (matchRatio n g) = [] then none else some ((pairs.filterMap (matchRatio n g)).map fl)
  freqs : ∀ g, Dict.get? acc.2 g = if totalCount n (pairs.map (·.1)) g = 0 then none else some (totalCount n (pairs.map (·.1)) g : ℤ)

theorem AccInv.nil (fl : ℚ → ℚ) (n : ℕ) : AccInv (α := α) fl n [] ([], []) :=
  ⟨by simp [Dict.keys], by simp [Dict.keys], by simp, by simp [totalCount]⟩

theorem AccInv.step {fl : ℚ → ℚ} {n : ℕ} {pairs : List (List α × List α)} {acc : GramAcc α} (h : AccInv fl n pairs acc) {own other : List α} {dw dt : Dict (List α) Int}
    (hw : ∀ g, Dict.get? dw g = if gramCount n own g = 0 then none else some (gramCount n own g : ℤ)) (hwn : (Dict.keys dw).Nodup)
    (ht : ∀ g, Dict.get? dt g = if gramCount n other g = 0 then none else some (gramCount n other g : ℤ)) :
    ∃ acc', gramLoop fl dt dw acc = .ok acc' ∧ AccInv fl n (pairs ++ [(own, other)]) acc' := by
  have hpos : ∀ p ∈ dw, 0 < p.2 := by
    intro p hp
    have := hw p.1
    rw [Dict.get?_of_mem hwn hp] at this
    split at this
    · cases this
    · simp only [Option.some.injEq] at this
      omega
  obtain ⟨acc', a1, a2, a3, a4, a5⟩ := gramLoop_ok fl dt dw acc hwn hpos h.nd1 h.nd2
  refine ⟨acc', a1, a2, a3, fun g => ?_, fun g => ?_⟩
  · rw [a4, hw, h.ratios, List.filterMap_append]
    by_cases hz : gramCount n own g = 0
    · simp only [hz, if_true, List.filterMap_cons, List.filterMap_nil, matchRatio, List.append_nil]
    · have htd : (Dict.get? dt g).getD 0 = (gramCount n other g : ℤ) := by
        rw [ht]
        split
        · rename_i h0; simp [h0]
        · rfl
      have hr : [(own, other)].filterMap (matchRatio n g) = [((min (gramCount n other g) (gramCount n own g) : ℕ) : ℚ) / (gramCount n own g : ℚ)] := by
        simp only [List.filterMap_cons, List.filterMap_nil, matchRatio, if_neg hz]
      rw [hr, if_neg hz]
      have hne : pairs.filterMap (matchRatio n g) ++ [((min (gramCount n other g) (gramCount n own g) : ℕ) : ℚ) / (gramCount n own g : ℚ)] ≠ [] := by simp
      rw [if_neg hne]
      simp only [htd, List.map_append, List.map_cons, List.map_nil]
      have hm : ((min (gramCount n other g : ℤ) (gramCount n own g : ℤ) : ℤ) : ℚ) / ((gramCount n own g : ℤ) : ℚ) =
          ((min (gramCount n other g) (gramCount n own g) : ℕ) : ℚ) / (gramCount n own g : ℚ) := by push_cast; rfl
      rw [hm]
      split
      · rename_i h0; simp [h0]
      · simp
  · have hfr := h.freqs g
    have htot : totalCount n ((pairs ++ [(own, other)]).map (·.1)) g = totalCount n (pairs.map (·.1)) g + gramCount n own g := by
      simp [totalCount]
    rw [a5, hw, htot]
    by_cases hz : gramCount n own g = 0
    · simp only [hz, if_true, Nat.add_zero]
      exact hfr
    · rw [if_neg hz, if_neg (by omega)]
      simp only [hfr]
      by_cases h0 : totalCount n (pairs.map (·.1)) g = 0
      · rw [if_pos h0, h0]; simp
      · rw [if_neg h0]; simp

theorem gramPairs_ok {fl : ℚ → ℚ} {n : ℕ} (hn : 0 < n) : ∀ (l : List (List α × List α)) {pre : List (List α × List α)} {r c : GramAcc α},
    AccInv fl n (pre.map Prod.swap) r → AccInv fl n pre c →
    ∃ r' c', gramPairs fl n l r c = .ok (r', c') ∧ AccInv fl n ((pre ++ l).map Prod.swap) r' ∧ AccInv fl n (pre ++ l) c' := by
  intro l
  induction l with
  | nil => intro pre r c h1 h2; exact ⟨r, c, rfl, by simpa using h1, by simpa using h2⟩
  | cons p l ih =>
    obtain ⟨cand, ref⟩ := p
    intro pre r c h1 h2
    obtain ⟨cg, c1, c2, c3⟩ := gramDict hn cand
    obtain ⟨rg, r1, r2, r3⟩ := gramDict hn ref
    obtain ⟨r', a1, a2⟩ := h1.step (own := ref) (other := cand) r3 r2 c3
    obtain ⟨c', b1, b2⟩ := h2.step (own := cand) (other := ref) c3 c2 r3
    obtain ⟨r'', c'', d1, d2, d3⟩ := ih (pre := pre ++ [(cand, ref)]) (by simpa using a2) b2
    refine ⟨r'', c'', ?_, by simpa using d2, by simpa using d3⟩
    simp only [gramPairs, c1, r1, a1, b1, d1]

theorem averages_ok (fl : ℚ → ℚ) : ∀ (d : Dict (List α) (List ℚ)), (∀ p ∈ d, p.2 ≠ []) →
    averages fl d = .ok (d.map fun p => (p.1, fl (flSum fl p.2 / fl p.2.length)))
  | [], _ => rfl
  | (g, l) :: d, h => by
    have h1 : l.length ≠ 0 := fun h0 => h (g, l) (by simp) (List.length_eq_zero_iff.1 h0)
    rw [averages, if_neg h1, averages_ok fl d fun p hp => h p (by simp [hp])]
    rfl

theorem get?_map_val {κ υ ω : Type} [DecidableEq κ] (f : υ → ω) (d : Dict κ υ) (k : κ) :
    Dict.get? (d.map fun p => (p.1, f p.2)) k = (Dict.get? d k).map f := by
  induction d with
  | nil => rfl
  | cons p d ih =>
    obtain ⟨a, v⟩ := p
    simp only [List.map_cons, Dict.get?_cons, ih]
    split <;> rfl

theorem keys_map_val {κ υ ω : Type} (f : υ → ω) (d : Dict κ υ) : Dict.keys (d.map fun p => (p.1, f p.2)) = Dict.keys d := by
  simp [Dict.keys]

theorem AccInv.averages {fl : ℚ → ℚ} {n : ℕ} {pairs : List (List α × List α)} {acc : GramAcc α} (h : AccInv fl n pairs acc) :
    ∃ d, averages fl acc.1 = .ok d ∧ (Dict.keys d).Nodup ∧ ∀ g, Dict.get? d g = if pairs.filterMap (matchRatio n g) = [] then none else
      some (fl (flSum fl ((pairs.filterMap (matchRatio n g)).map fl) / fl (pairs.filterMap (matchRatio n g)).length)) := by
  refine ⟨_, averages_ok fl acc.1 ?_, ?_, fun g => ?_⟩
  · intro p hp h0
    have h1 := h.ratios p.1
    rw [Dict.get?_of_mem h.nd1 hp, h0] at h1
    split at h1
    · cases h1
    · rename_i hne
      simp only [Option.some.injEq] at h1
      exact hne (List.map_eq_nil_iff.1 h1.symm)
  · rw [keys_map_val fun l => fl (flSum fl l / fl l.length)]; exact h.nd1
  · rw [get?_map_val fun l => fl (flSum fl l / fl l.length), h.ratios]
    split
    · rfl
    · simp only [Option.map_some, List.length_map]

/-- what is in a report -/
structure ReportOf (fl : ℚ → ℚ) (n : ℕ) (pairs : List (List α × List α)) (rep : GramReport α) : Prop where
  recalls_nodup : (Dict.keys rep.recalls).Nodup
  recall : ∀ g, Dict.get? rep.recalls g = if (pairs.map Prod.swap).filterMap (matchRatio n g) = [] then none else
      some (fl (flSum fl (((pairs.map Prod.swap).filterMap (matchRatio n g)).map fl) / fl ((pairs.map Prod.swap).filterMap (matchRatio n g)).length))
  refs_nodup : (Dict.keys rep.refFreqs).Nodup
  refs : ∀ g, Dict.get? rep.refFreqs g = if totalCount n (pairs.map (·.2)) g = 0 then none else some (totalCount n (pairs.map (·.2)) g : ℤ)
  precs_nodup : (Dict.keys rep.precisions).Nodup
  prec : ∀ g, Dict.get? rep.precisions g = if pairs.filterMap (matchRatio n g) = [] then none else
      some (fl (flSum fl ((pairs.filterMap (matchRatio n g)).map fl) / fl (pairs.filterMap (matchRatio n g)).length))
  cands_nodup : (Dict.keys rep.candFreqs).Nodup
  cands : ∀ g, Dict.get? rep.candFreqs g = if totalCount n (pairs.map (·.1)) g = 0 then none else some (totalCount n (pairs.map (·.1)) g : ℤ)

theorem countGramRecall_ok (fl : ℚ → ℚ) {n : ℕ} (hn : 0 < n) (cands refs : List (List α)) :
    ∃ rep, countGramRecall fl cands refs n = .ok rep ∧ ReportOf fl n (cands.zip refs) rep := by
  obtain ⟨r, c, h1, h2, h3⟩ := gramPairs_ok (fl := fl) hn (cands.zip refs) (pre := []) (AccInv.nil fl n) (AccInv.nil fl n)
  simp only [List.nil_append] at h2 h3
  obtain ⟨dr, a1, a2, a3⟩ := h2.averages
  obtain ⟨dc, b1, b2, b3⟩ := h3.averages
  refine ⟨⟨dr, r.2, dc, c.2⟩, by simp only [countGramRecall, h1, a1, b1], a2, a3, h2.nd2, fun g => ?_, b2, b3, h3.nd2, h3.freqs⟩
  have := h2.freqs g
  rw [List.map_map] at this
  exact this

/-! ## Rounded means -/

theorem flSum_range {fl : ℚ → ℚ} (hf : Rounding fl) : ∀ (l : List ℚ) (k : ℕ), k + l.length ≤ 2 ^ 53 → (∀ x ∈ l, 0 ≤ x ∧ x ≤ 1) → ∀ a : ℚ, 0 ≤ a → a ≤ k →
    0 ≤ l.foldl (fun a x => fl (a + x)) a ∧ l.foldl (fun a x => fl (a + x)) a ≤ (k + l.length : ℕ) := by
  intro l
  induction l with
  | nil => intro k _ _ a h1 h2; exact ⟨h1, by simpa using h2⟩
  | cons x l ih =>
    intro k hk hx a h1 h2
    simp only [List.foldl_cons, List.length_cons] at hk ⊢
    obtain ⟨x0, x1⟩ := hx x (by simp)
    have f0 : fl 0 = 0 := by have := hf.nat 0 (by norm_num); simpa using this
    have fk : fl ((k + 1 : ℕ) : ℚ) = (k + 1 : ℕ) := hf.nat _ (by omega)
    have := ih (k + 1) (by omega) (fun y hy => hx y (by simp [hy])) (fl (a + x))
      (by rw [← f0]; exact hf.mono (by linarith))
      (by rw [← fk]; exact hf.mono (by push_cast; linarith))
    rw [show k + (l.length + 1) = k + 1 + l.length by omega]
    exact this

theorem mean_range {fl : ℚ → ℚ} (hf : Rounding fl) {l : List ℚ} (hl : l.length ≤ 2 ^ 53) (hx : ∀ x ∈ l, 0 ≤ x ∧ x ≤ 1) :
    0 ≤ fl (flSum fl (l.map fl) / fl l.length) ∧ fl (flSum fl (l.map fl) / fl l.length) ≤ 1 := by
  have f0 : fl 0 = 0 := by have := hf.nat 0 (by norm_num); simpa using this
  have f1 : fl 1 = 1 := by have := hf.nat 1 (by norm_num); simpa using this
  have h := flSum_range hf (l.map fl) 0 (by simpa using hl) (by
    intro y hy
    obtain ⟨x, hxl, rfl⟩ := List.mem_map.1 hy
    obtain ⟨a, b⟩ := hx x hxl
    exact ⟨by rw [← f0]; exact hf.mono a, by rw [← f1]; exact hf.mono b⟩) 0 (le_refl _) (by simp)
  rw [List.length_map, Nat.zero_add] at h
  rw [hf.nat _ hl]
  have hlen : (0 : ℚ) ≤ (l.length : ℚ) := by positivity
  constructor
  · conv_lhs => rw [← f0]
    exact hf.mono (div_nonneg h.1 hlen)
  · conv_rhs => rw [← f1]
    exact hf.mono (div_le_one_of_le₀ h.2 hlen)

theorem matchRatio_range {n : ℕ} {g : List α} {p : List α × List α} {x : ℚ} (h : matchRatio n g p = some x) : 0 ≤ x ∧ x ≤ 1 := by
  unfold matchRatio at h
  split at h
  · cases h
  · rename_i hne
    simp only [Option.some.injEq] at h
    subst h
    have hp : (0 : ℚ) < gramCount n p.1 g := by exact_mod_cast Nat.pos_of_ne_zero hne
    refine ⟨by positivity, ?_⟩
    rw [div_le_one hp]
    exact_mod_cast min_le_right _ _

theorem matchRatio_self {n : ℕ} {g : List α} {s : List α} {x : ℚ} (h : matchRatio n g (s, s) = some x) : x = 1 := by
  unfold matchRatio at h
  split at h
  · cases h
  · rename_i hne
    simp only [Option.some.injEq] at h
    subst h
    simp only [min_self]
    have hp : (gramCount n s g : ℚ) ≠ 0 := by exact_mod_cast hne
    exact div_self hp

theorem flSum_ones {fl : ℚ → ℚ} (hf : Rounding fl) : ∀ (m k : ℕ), k + m ≤ 2 ^ 53 → (List.replicate m (1 : ℚ)).foldl (fun a x => fl (a + x)) k = (k + m : ℕ) := by
  intro m
  induction m with
  | zero => intro k _; simp
  | succ m ih =>
    intro k hk
    simp only [List.replicate_succ, List.foldl_cons]
    have h1 := hf.nat (k + 1) (by omega)
    push_cast at h1
    rw [h1]
    have := ih (k + 1) (by omega)
    push_cast at this ⊢
    rw [this]
    ring

end

end Verif
