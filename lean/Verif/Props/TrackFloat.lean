import Verif.Model.TrackFloat
import Verif.Props.Track
import Verif.Props.QualityFloat
/-!
# C61 in binary64: tracked merges
-/

namespace Verif

namespace Spec

/-- what a row in binary64 says of the corpus `C` over `k` types: the size, the float nearest to the mean length, and an imbalance of [0, 1) that is off by at most
(k + 4) / 2^53 and zero exactly if all counts are equal; each count is too small by `short` -/
def RowNear (short : Nat → Int) (k : Nat) (C : Corpus) (row : Nat × Option ℚ × Option ℚ) : Prop :=
  let cs := (List.range k).map fun v => symTotal C v - short v
  row.1 = k ∧ (row.2.2 = none ↔ C = []) ∧ (∀ m, row.2.2 = some m → Nearest64 (((seqLens C).sum : ℚ) / C.length) m) ∧ (row.2.1 = none ↔ cs.sum = 0) ∧
    ∀ d, row.2.1 = some d → ∃ e, imbalance cs = some e ∧ 0 ≤ d ∧ d < 1 ∧ |d - e| ≤ (k + 4) / 2 ^ 53 ∧ (d = 0 ↔ ∀ x ∈ cs, ∀ y ∈ cs, x = y)

end Spec
open Spec

theorem RoundedSum.exact {l : List ℚ} {s : ℚ} (h : RoundedSum rnd64 l s) : ∀ ns : List ℕ, l.Perm (ns.map fun n : ℕ => (n : ℚ)) → ns.sum ≤ 2 ^ 53 →
    s = (ns.sum : ℚ) := by
  have key : ∀ l s, RoundedSum rnd64 l s → (∀ x ∈ l, ∃ n : ℕ, x = n) → l.sum ≤ 2 ^ 53 → s = l.sum ∧ ∃ n : ℕ, s = n := by
    intro l s h
    induction h with
    | none => intro _ _; exact ⟨by simp, 0, by simp⟩
    | one x => intro hx _; exact ⟨by simp, hx x (by simp)⟩
    | @add a b c u v _ _ _ _ hp iha ihb =>
      intro hx hs
      have hA : ∀ x ∈ a, ∃ n : ℕ, x = n := fun x h => hx x (hp.mem_iff.2 (by simp [h]))
      have hB : ∀ x ∈ b, ∃ n : ℕ, x = n := fun x h => hx x (hp.mem_iff.2 (by simp [h]))
      have sA : 0 ≤ a.sum := List.sum_nonneg fun x h => by obtain ⟨n, rfl⟩ := hA x h; exact Nat.cast_nonneg _
      have sB : 0 ≤ b.sum := List.sum_nonneg fun x h => by obtain ⟨n, rfl⟩ := hB x h; exact Nat.cast_nonneg _
      have hc : c.sum = a.sum + b.sum := by rw [hp.sum_eq, List.sum_append]
      rw [hc] at hs ⊢
      obtain ⟨e1, m, hm⟩ := iha hA (by linarith)
      obtain ⟨e2, n, hn⟩ := ihb hB (by linarith)
      rw [← e1, ← e2, hm, hn] at hs ⊢
      have : ((m : ℚ) + n) = ((m + n : ℕ) : ℚ) := by push_cast; rfl
      rw [this] at hs ⊢
      have hle : m + n ≤ 2 ^ 53 := by exact_mod_cast hs
      exact ⟨rnd64_rounding.nat _ hle, m + n, rnd64_rounding.nat _ hle⟩
  intro ns hp hs
  have hl : l.sum = (ns.sum : ℚ) := by rw [hp.sum_eq, natCast_sum_rat]
  rw [← hl]
  refine (key l s h ?_ ?_).1
  · intro x hx
    obtain ⟨n, _, rfl⟩ := List.mem_map.1 (hp.mem_iff.1 hx)
    exact ⟨n, rfl⟩
  · rw [hl]; exact_mod_cast hs

theorem toNat_map_cast {l : List Int} (h : ∀ x ∈ l, 0 ≤ x) : l.map (fun (x : Int) => (x : ℚ)) = (l.map Int.toNat).map fun n : ℕ => (n : ℚ) := by
  rw [List.map_map]
  apply List.map_congr_left
  intro x hx
  simp only [Function.comp]
  conv_lhs => rw [← Int.toNat_of_nonneg (h x hx)]
  rw [Int.cast_natCast]

theorem meanLenF64_near {npSum : List ℚ → ℚ} (hS : ∀ l, RoundedSum rnd64 l (npSum l)) {l : List Int} (h0 : ∀ x ∈ l, 1 ≤ x) (hs : l.sum ≤ 2 ^ 53) :
    (meanLenF64 npSum l = none ↔ l = []) ∧ ∀ m, meanLenF64 npSum l = some m → Nearest64 ((l.sum : ℚ) / l.length) m := by
  unfold meanLenF64
  split
  · rename_i h; simp [h]
  · rename_i h
    refine ⟨by simp [h], ?_⟩
    intro m hm
    injection hm with hm
    have hn : ∀ x ∈ l, 0 ≤ x := fun x hx => by have := h0 x hx; omega
    have hsum := toNat_sum hn
    rw [isum_eq_sum] at hsum
    have hsum' : (l.map Int.toNat).sum ≤ 2 ^ 53 := by have := hsum ▸ hs; exact_mod_cast this
    have hle : ∀ x ∈ l, x.toNat ≤ 2 ^ 53 := fun x hx => (List.le_sum_of_mem (List.mem_map.2 ⟨x, hx, rfl⟩)).trans hsum'
    have e1 : l.map (fun (x : Int) => rnd64 x) = l.map fun (x : Int) => (x : ℚ) := by
      apply List.map_congr_left
      intro x hx
      have := rnd64_rounding.nat _ (hle x hx)
      have hc : ((x.toNat : ℕ) : ℚ) = (x : ℚ) := by
        conv_rhs => rw [← Int.toNat_of_nonneg (hn x hx)]
        rw [Int.cast_natCast]
      rwa [hc] at this
    have e2 : npSum (l.map fun (x : Int) => rnd64 x) = (l.sum : ℚ) := by
      rw [e1, RoundedSum.exact (hS _) (l.map Int.toNat) (by rw [toNat_map_cast hn]) hsum', ← hsum, Int.cast_natCast]
    have hlen : l.length ≤ 2 ^ 53 := by
      have : (l.length : Int) ≤ l.sum := by
        clear * - h0
        induction l with
        | nil => simp
        | cons a l ih =>
          have := h0 a (by simp)
          have := ih fun x hx => h0 x (by simp [hx])
          rw [List.sum_cons, List.length_cons]; push_cast; omega
      have := this.trans hs
      exact_mod_cast this
    rw [e2, rnd64_rounding.nat _ hlen] at hm
    rw [← hm]
    exact rnd64_nearest _

theorem trackerEmdF64_near {npSum : List ℚ → ℚ} (hS : ∀ l, RoundedSum rnd64 l (npSum l)) {cs : List Int} (h0 : ∀ x ∈ cs, 0 ≤ x) (hs : cs.sum ≤ 2 ^ 51)
    (hk : 0 < cs.length) (hk' : cs.length ≤ 2 ^ 26) :
    ∃ r, trackerEmdF64 npSum cs = .ok r ∧ (r = none ↔ cs.sum = 0) ∧
      ∀ d, r = some d → ∃ e, imbalance cs = some e ∧ 0 ≤ d ∧ d < 1 ∧ |d - e| ≤ (cs.length + 4) / 2 ^ 53 ∧ (d = 0 ↔ ∀ x ∈ cs, ∀ y ∈ cs, x = y) := by
  have hsum := toNat_sum h0
  rw [isum_eq_sum] at hsum
  have hne : cs.length ≠ 0 := by omega
  by_cases hz : cs.sum = 0
  · refine ⟨none, by simp only [trackerEmdF64, hne, hz, if_false, if_true], by simp [hz], by simp⟩
  have hz' : (cs.map Int.toNat).sum ≠ 0 := by
    intro h; rw [h] at hsum; exact hz (by rw [← hsum]; rfl)
  have hs' : (cs.map Int.toNat).sum ≤ 2 ^ 51 := by have := hsum ▸ hs; exact_mod_cast this
  obtain ⟨d, e1, d0, d1, dn, dz⟩ := C59_emd_float hS (stats := cs.map Int.toNat) (by simpa using hk') hs' hz'
  have hq : ((cs.sum : Int) : ℚ) = (((cs.map Int.toNat).sum : ℕ) : ℚ) := by rw [← hsum, Int.cast_natCast]
  have hc : ∀ x ∈ cs, (x : ℚ) = ((x.toNat : ℕ) : ℚ) := fun x hx => by
    conv_lhs => rw [← Int.toNat_of_nonneg (h0 x hx)]
    rw [Int.cast_natCast]
  have he : trackerEmdF64 npSum cs = emdF64 npSum (cs.map Int.toNat) := by
    simp only [trackerEmdF64, emdF64, hne, hz, hz', if_false, List.length_map, List.map_map, hq]
    congr 5
    apply List.map_congr_left
    intro x hx
    simp only [Function.comp, hc x hx]
  rw [List.length_map] at dn
  refine ⟨some d, by rw [he, e1], by simp [hz], ?_⟩
  intro d' hd'
  injection hd' with hd'
  subst hd'
  refine ⟨unevenness (cs.map Int.toNat), ?_, d0, d1, dn, ?_⟩
  · rw [imbalance, if_neg hz, unevenness, List.map_map, List.length_map, hq, one_div_mul_eq_div]
    congr 3
    apply List.map_congr_left
    intro x hx
    simp only [Function.comp, hc x hx]
  · rw [dz]
    constructor
    · intro H x hx y hy
      have := H _ (List.mem_map.2 ⟨x, hx, rfl⟩) _ (List.mem_map.2 ⟨y, hy, rfl⟩)
      have := h0 x hx
      have := h0 y hy
      omega
    · intro H x hx y hy
      obtain ⟨x', hx', rfl⟩ := List.mem_map.1 hx
      obtain ⟨y', hy', rfl⟩ := List.mem_map.1 hy
      rw [H x' hx' y' hy']

theorem trackRowF64_ok {npSum : List ℚ → ℚ} (hS : ∀ l, RoundedSum rnd64 l (npSum l)) {total bound : Nat} {sh : Nat → Int} {T : Track} {G : Segs} {g : Dict Nat Int}
    (h : TInv total sh bound T G g) {k : Nat} (hk : 0 < k) (hkt : k ≤ total) (ht : total ≤ 2 ^ 26) :
    ∃ row, trackRowF64 npSum k T = .ok row ∧ ((∀ x ∈ seqLens (corpusOf T.mem G), 1 ≤ x) → (seqLens (corpusOf T.mem G)).sum ≤ 2 ^ 53 →
      (∀ v, v < k → sh v ≤ symTotal (corpusOf T.mem G) v) → ((List.range k).map fun v => symTotal (corpusOf T.mem G) v - sh v).sum ≤ 2 ^ 51 →
      RowNear sh k (corpusOf T.mem G) row) := by
  have hlen : (T.uni.take k).length = k := by rw [List.length_take, h.uni.1]; omega
  have hcs : T.uni.take k = (List.range k).map fun v => symTotal (corpusOf T.mem G) v - sh v := by
    apply List.ext_getElem
    · simp [hlen]
    · intro i h1 h2
      simp only [List.length_map, List.length_range] at h2
      have hb := h.counts (by omega : i < total)
      simp only [List.getElem_take, List.getElem_map, List.getElem_range]
      rw [← hb]
      exact (getElem!_pos T.uni i (by rw [h.uni.1]; omega)).symm
  have hex : ∃ emd, trackerEmdF64 npSum (T.uni.take k) = .ok emd := by
    have hk0 : k ≠ 0 := by omega
    simp only [trackerEmdF64, hlen, hk0, if_false]
    split <;> exact ⟨_, rfl⟩
  obtain ⟨emd, he⟩ := hex
  refine ⟨(k, emd, meanLenF64 npSum T.lens), by simp only [trackRowF64, he], ?_⟩
  intro h1 h2 h3 h4
  obtain ⟨r, e1, e2, e3⟩ := trackerEmdF64_near hS (cs := T.uni.take k) (by
    rw [hcs]
    intro x hx
    obtain ⟨v, hv, rfl⟩ := List.mem_map.1 hx
    have := h3 v (List.mem_range.1 hv)
    omega) (by rw [hcs]; exact h4) (by omega) (by omega)
  rw [he] at e1
  injection e1 with e1
  subst e1
  rw [hlen] at e3
  rw [hcs] at e2 e3
  obtain ⟨m1, m2⟩ := meanLenF64_near hS h1 h2
  rw [h.lens]
  refine ⟨rfl, ?_, ?_, e2, e3⟩
  · simp only; rw [m1]; simp [seqLens]
  · intro m hm
    have := m2 m hm
    rwa [show (seqLens (corpusOf T.mem G)).length = (corpusOf T.mem G).length from List.length_map _] at this

/-! ## sizes of the corpora -/

theorem sum_count_le (s : List Nat) (k : Nat) : ((List.range k).map fun v => (s.count v : Int)).sum ≤ (s.length : Int) := by
  induction s with
  | nil => simp
  | cons a s ih =>
    have e : ((List.range k).map fun v => (((a :: s).count v : ℕ) : Int)).sum =
        ((List.range k).map fun v => (s.count v : Int)).sum + ((List.range k).map fun v => if a = v then (1 : Int) else 0).sum := by
      rw [← List.sum_map_add]
      congr 1
      apply List.map_congr_left
      intro v _
      rw [List.count_cons]
      by_cases h : a = v <;> simp [h]
    have e2 : ∀ k, ((List.range k).map fun v => if a = v then (1 : Int) else 0).sum ≤ if a < k then 1 else 0 := by
      intro k
      induction k with
      | zero => simp
      | succ k ih =>
        rw [List.range_succ, List.map_append, List.sum_append]
        simp only [List.map_cons, List.map_nil, List.sum_cons, List.sum_nil, add_zero]
        split_ifs at ih ⊢ <;> omega
    have := e2 k
    rw [e, List.length_cons]
    push_cast
    split_ifs at this <;> omega

/-- the counts of the first `k` symbols of sequences of weight one add up to at most their total length -/
theorem sum_symTotal_le {C : Corpus} (hC : ∀ s ∈ C, s.2 = 1) (k : Nat) : ((List.range k).map fun v => symTotal C v).sum ≤ (seqLens C).sum := by
  induction C with
  | nil => simp [symTotal, seqLens]
  | cons s C ih =>
    have h1 := sum_count_le s.1 k
    have h2 := ih fun t ht => hC t (by simp [ht])
    have e : ((List.range k).map fun v => symTotal (s :: C) v).sum =
        ((List.range k).map fun v => (s.1.count v : Int)).sum + ((List.range k).map fun v => symTotal C v).sum := by
      rw [← List.sum_map_add]
      congr 1
      apply List.map_congr_left
      intro v _
      simp [symTotal, hC s (by simp)]
    rw [e]
    simp only [seqLens, List.map_cons, List.sum_cons] at h2 ⊢
    omega

theorem replaces_length {a b r : Nat} {s t : List Nat} (h : Replaces a b r s t) : t.length ≤ s.length ∧ (1 ≤ s.length → 1 ≤ t.length) := by
  induction h with
  | nil => simp
  | keep x _ ih => simp; exact ih.1
  | pair _ ih => simp; have := ih.1; omega

theorem merged_sizes {p : Nat × Nat} {r : Nat} {C C1 : Corpus} (h : Merged p r C C1) (hC : ∀ s ∈ C, s.2 = 1 ∧ 1 ≤ s.1.length) :
    (∀ s ∈ C1, s.2 = 1 ∧ 1 ≤ s.1.length) ∧ (seqLens C1).sum ≤ (seqLens C).sum := by
  unfold Merged at h
  induction h with
  | nil => simp
  | @cons s t C C1 hx _ ih =>
    obtain ⟨i1, i2⟩ := ih fun s hs => hC s (by simp [hs])
    obtain ⟨l1, l2⟩ := replaces_length hx.2.1
    obtain ⟨c1, c2⟩ := hC s (by simp)
    constructor
    · intro u hu
      rcases List.mem_cons.1 hu with rfl | hu
      · exact ⟨hx.1 ▸ c1, l2 c2⟩
      · exact i1 u hu
    · simp only [seqLens, List.map_cons, List.sum_cons] at i2 ⊢
      omega

theorem stages_sizes {ts : List Ty} {Cs : List Corpus} (h : Stages ts Cs) : ∀ C0, Cs.head? = some C0 → (∀ s ∈ C0, s.2 = 1 ∧ 1 ≤ s.1.length) →
    ∀ C ∈ Cs, (∀ s ∈ C, s.2 = 1 ∧ 1 ≤ s.1.length) ∧ (seqLens C).sum ≤ (seqLens C0).sum := by
  induction h with
  | last C =>
    intro C0 h0 h C' hC'
    cases h0
    rw [List.mem_singleton.1 hC']
    exact ⟨h, le_refl _⟩
  | @step t ta tb ts C C1 Cs _ hm _ ih =>
    intro C0 h0 h C' hC'
    cases h0
    obtain ⟨m1, m2⟩ := merged_sizes hm h
    rcases List.mem_cons.1 hC' with rfl | hC'
    · exact ⟨h, le_refl _⟩
    · obtain ⟨i1, i2⟩ := ih C1 rfl m1 C' hC'
      exact ⟨i1, i2.trans m2⟩

theorem encode_nonempty_of {tbl : List Ty} {s : Scheme} (h : Scheme.make .bpe tbl = .ok s) (hi : Indexed tbl) {data : List Str} {seqs : List (List Nat)}
    (hf : List.Forall₂ (fun l q => s.encode l = .ok (q.map fun (i : Nat) => (i : Int))) data seqs) : ∀ q ∈ seqs, q ≠ [] := by
  obtain ⟨seqs', _, hf', hne, _⟩ := encodeAll_ok h hi data
  have hse : seqs' = seqs := by
    clear * - hf hf'
    induction hf generalizing seqs' with
    | nil => cases hf'; rfl
    | cons hx _ ih =>
      cases hf' with
      | cons hx' hf' =>
        rw [hx] at hx'
        injection hx' with hx'
        rw [ih _ hf', List.map_injective_iff.2 (fun a b hab => by simpa using hab) hx']
  rw [← hse]; exact hne

/-- C61 in binary64: `estimate` on a file of at most 2^26 types never fails, and if the text has at most 2^51 pieces then, whatever the order in which `numpy` adds,
every row reports the number of types, the float nearest to the mean length of its corpus, and, unless some reported count is negative, an imbalance that is
`nan` only if there are no counts, lies in [0, 1), differs by at most (k + 4) / 2^53 from the imbalance of the reported counts, and is 0 exactly if these are all
equal. Missing: rows with negative counts, which can happen only if some merge joins a symbol with itself. -/
theorem C61_float_partial {npSum : List ℚ → ℚ} (hS : ∀ l, RoundedSum rnd64 l (npSum l)) {init ms : List Ty} (h : MergeTable init ms)
    (hk : (init ++ ms).length ≤ 2 ^ 26) {s : Scheme} (hs : Scheme.make .bpe init = .ok s)
    {ord : Nat → List Nat → List Nat} (hord : ∀ i l, (ord i l).Perm l) (data : List Str) :
    ∃ seqs rows x T Cs, List.Forall₂ (fun l q => s.encode l = .ok (q.map fun (i : Nat) => (i : Int))) data seqs ∧
      trackEstimateF64 npSum ord (some 1) (init ++ ms) data = .ok (rows, x, T) ∧ Stages ms (plain seqs :: Cs) ∧ rows.length = ms.length + 1 ∧
      ((seqLens (plain seqs)).sum ≤ 2 ^ 51 → ∀ i row C, rows[i]? = some row → (plain seqs :: Cs)[i]? = some C →
        (∀ v, v < init.length + i → shortfall v (ms.take i) (plain seqs :: Cs) ≤ symTotal C v) →
        RowNear (fun v => shortfall v (ms.take i) (plain seqs :: Cs)) (init.length + i) C row) := by
  obtain ⟨seqs, rows, x, T, Cs, C, hf, he, hst, hl, hrows, _, _, _, hsh⟩ := estimate_by (mkRow := trackRowF64 npSum)
    (R := fun sh k C row => (∀ x ∈ seqLens C, 1 ≤ x) → (seqLens C).sum ≤ 2 ^ 53 → (∀ v, v < k → sh v ≤ symTotal C v) →
      ((List.range k).map fun v => symTotal C v - sh v).sum ≤ 2 ^ 51 → RowNear sh k C row) h
    (fun h _ hk0 hkt => trackRowF64_ok hS h hk0 hkt hk) hs hord data
  refine ⟨seqs, rows, x, T, Cs, hf, he, hst, hl, ?_⟩
  intro hN i row C hr hC hneg
  have hne := encode_nonempty_of hs h.initIdx hf
  obtain ⟨z1, z2⟩ := stages_sizes hst (plain seqs) rfl (by
    intro q hq
    obtain ⟨q', hq', rfl⟩ := List.mem_map.1 hq
    exact ⟨rfl, List.length_pos_iff.2 (hne q' hq')⟩) C (List.mem_of_getElem? hC)
  have hi : i ≤ ms.length := by
    have := (List.getElem?_eq_some_iff.1 hr).1; omega
  refine hrows i row C hr hC ?_ ?_ hneg ?_
  · intro x hx
    obtain ⟨q, hq, rfl⟩ := List.mem_map.1 hx
    have := (z1 q hq).2
    exact_mod_cast this
  · exact z2.trans (hN.trans (by norm_num))
  · have h1 := sum_symTotal_le (fun q hq => (z1 q hq).1) (init.length + i)
    have h2 : ((List.range (init.length + i)).map fun v => symTotal C v - shortfall v (ms.take i) (plain seqs :: Cs)).sum ≤
        ((List.range (init.length + i)).map fun v => symTotal C v).sum := by
      apply List.sum_le_sum
      intro v _
      have := (hsh i v hi).1
      omega
    exact h2.trans (h1.trans (z2.trans hN))

/-- C61 in binary64 when no merge joins a symbol with itself: all rows are right up to rounding. Missing: such merges. -/
theorem C61_float_true_partial {npSum : List ℚ → ℚ} (hS : ∀ l, RoundedSum rnd64 l (npSum l)) {init ms : List Ty} (h : MergeTable init ms)
    (hk : (init ++ ms).length ≤ 2 ^ 26) {s : Scheme} (hs : Scheme.make .bpe init = .ok s)
    {ord : Nat → List Nat → List Nat} (hord : ∀ i l, (ord i l).Perm l) (data : List Str) (hd : ∀ v, ¬ Doubles ms v) :
    ∃ seqs rows x T Cs, List.Forall₂ (fun l q => s.encode l = .ok (q.map fun (i : Nat) => (i : Int))) data seqs ∧
      trackEstimateF64 npSum ord (some 1) (init ++ ms) data = .ok (rows, x, T) ∧ Stages ms (plain seqs :: Cs) ∧ rows.length = ms.length + 1 ∧
      ((seqLens (plain seqs)).sum ≤ 2 ^ 51 → ∀ i row C, rows[i]? = some row → (plain seqs :: Cs)[i]? = some C → RowNear (fun _ => 0) (init.length + i) C row) := by
  obtain ⟨seqs, rows, x, T, Cs, hf, he, hst, hl, hrows⟩ := C61_float_partial hS h hk hs hord data
  refine ⟨seqs, rows, x, T, Cs, hf, he, hst, hl, ?_⟩
  intro hN i row C hr hC
  have hz : ∀ v, shortfall v (ms.take i) (plain seqs :: Cs) = 0 := fun v =>
    shortfall_zero (fun ⟨t, ht, hx⟩ => hd v ⟨t, List.mem_of_mem_take ht, hx⟩)
  have := hrows hN i row C hr hC
  simp only [hz] at this
  apply this
  intro v _
  have hne := encode_nonempty_of hs h.initIdx hf
  obtain ⟨z1, _⟩ := stages_sizes hst (plain seqs) rfl (by
    intro q hq
    obtain ⟨q', hq', rfl⟩ := List.mem_map.1 hq
    exact ⟨rfl, List.length_pos_iff.2 (hne q' hq')⟩) C (List.mem_of_getElem? hC)
  apply List.sum_nonneg
  intro x hx
  obtain ⟨q, hq, rfl⟩ := List.mem_map.1 hx
  rw [(z1 q hq).1, one_mul]
  exact_mod_cast Nat.zero_le _

/-- the rows for the example table: rounding shows in all but the first -/
example : (match trackEstimateF64 sumFromRight ordRev (some 1) (exTrackInit ++ exTrackMerges) [lit "abab b", lit "ab", lit "b"] with
    | .error _ => none
    | .ok (rows, _, _) => some rows) =
      some [(8, some (5 / 8), some 4), (9, some (3002399751580331 / 4503599627370496), some 3),
        (10, some (5404319552844595 / 9007199254740992), some (5254199565265579 / 2251799813685248)),
        (11, some (1432963517799703 / 2251799813685248), some (5254199565265579 / 2251799813685248))] := by decide +kernel

/-- ... while the exact ones are these -/
example : (match trackEstimate ordRev (some 1) (exTrackInit ++ exTrackMerges) [lit "abab b", lit "ab", lit "b"] with
    | .error _ => none
    | .ok (rows, _, _) => some rows) =
      some [(8, some (5 / 8), some 4), (9, some (2 / 3), some 3), (10, some (3 / 5), some (7 / 3)), (11, some (7 / 11), some (7 / 3))] := by decide +kernel

/-- the hypotheses of `C61_float_true_partial` can be met -/
example : (∀ l, RoundedSum rnd64 l (sumFromRight l)) ∧ MergeTable exTrackInit exTrackMerges ∧ (exTrackInit ++ exTrackMerges).length ≤ 2 ^ 26 ∧
    ∀ v, ¬ Doubles exTrackMerges v := by
  refine ⟨sumFromRight_rounded, mergeTable_of (by decide +kernel), by decide +kernel, ?_⟩
  rintro v ⟨t, ht, ta, tb, hk, rfl, h⟩
  have : ∀ t ∈ exTrackMerges, ∀ a b, t.kids = [a, b] → a.idx ≠ b.idx := by
    have h : exTrackMerges.all (fun t => match t.kids with | [a, b] => a.idx != b.idx | _ => true) = true := by decide +kernel
    intro t ht a b hk
    have := List.all_eq_true.1 h t ht
    simpa [hk] using this
  exact this t ht ta tb hk h.symm

end Verif
