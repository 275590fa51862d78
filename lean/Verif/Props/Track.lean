import Verif.Lemmas.Track
import Verif.Props.BpeLearn
/-! # Tracked merges: C61, C70 -/

namespace Verif
open Spec

/-! ## construction -/

theorem checkKids_ok {ms : List Ty} (h : ∀ t ∈ ms, ∃ ta tb, t.kids = [ta, tb] ∧ ta.idx < t.idx ∧ tb.idx < t.idx) : checkKids ms = .ok () := by
  induction ms with
  | nil => rfl
  | cons t ms ih =>
    obtain ⟨ta, tb, hk, _⟩ := h t (by simp)
    simp only [checkKids, hk, List.length_cons, List.length_nil, if_true]
    simp [ih (fun t ht => h t (by simp [ht]))]

theorem xtInit_ok {init ms : List Ty} (h : MergeTable init ms) {s : Scheme} (hs : Scheme.make .bpe init = .ok s) :
    xtInit (some Level.subword) (init ++ ms) = .ok ⟨s, ms⟩ := by
  have hl : Level.subword = 1 := rfl
  have h1 : (init ++ ms).filter (fun t => decide (t.level < Level.subword)) = init := by
    rw [List.filter_append, List.filter_eq_self.2, List.filter_eq_nil_iff.2, List.append_nil]
    · intro t ht; have := h.high t ht; simp [hl]; omega
    · intro t ht; have := h.low t ht; simp [hl]; omega
  have h2 : (init ++ ms).filter (fun t => decide (Level.subword ≤ t.level)) = ms := by
    rw [List.filter_append, List.filter_eq_nil_iff.2, List.nil_append, List.filter_eq_self.2]
    · intro t ht; have := h.high t ht; simp [hl]; omega
    · intro t ht; have := h.low t ht; simp [hl]; omega
  simp only [xtInit, if_true, h1, h2, checkKids_ok h.kids, hs]

theorem Spec.MergeTable.bufIdx {init ms : List Ty} (h : MergeTable init ms) : ∀ i t, ms[i]? = some t → t.idx = init.length + i := by
  intro i t ht
  apply h.indexed
  rw [List.getElem?_append_right (by omega), Nat.add_sub_cancel_left]; exact ht

theorem Spec.MergeTable.initIdx {init ms : List Ty} (h : MergeTable init ms) : Indexed init := by
  intro i t ht
  apply h.indexed
  rw [List.getElem?_append_left (List.getElem?_eq_some_iff.1 ht).1]; exact ht

theorem Spec.MergeTable.take {init ms : List Ty} (h : MergeTable init ms) (n : Nat) : MergeTable init (ms.take n) where
  indexed := by
    intro i t ht
    apply h.indexed
    have hp : (init ++ ms.take n) <+: (init ++ ms) := by
      rw [List.prefix_append_right_inj]; exact List.take_prefix n ms
    obtain ⟨r, hr⟩ := hp
    rw [← hr, List.getElem?_append_left (List.getElem?_eq_some_iff.1 ht).1]; exact ht
  low := h.low
  high := fun t ht => h.high t (List.mem_of_mem_take ht)
  kids := fun t ht => h.kids t (List.mem_of_mem_take ht)

theorem bpe_encode_nonempty {tbl : List Ty} {s : Scheme} (h : Scheme.make .bpe tbl = .ok s) (hi : Indexed tbl) (line : Str) :
    ∃ ids, s.encode line = .ok ids ∧ ids ≠ [] ∧ ∀ i ∈ ids, 0 ≤ i ∧ i < tbl.length := by
  obtain ⟨ids, he, hr⟩ := C05_ids_in_range_bpe h hi line
  refine ⟨ids, he, ?_, hr⟩
  obtain ⟨out, hg, _, he2⟩ := bpe_encode_spec h hi line
  rw [he] at he2
  injection he2 with he2
  rintro rfl
  have : out = [] := by simpa using he2.symm
  subst this
  have : bpeText line = [] := by
    generalize bpeText line = t at hg
    cases hg; rfl
  simp [bpeText] at this

theorem encodeAll_ok {tbl : List Ty} {s : Scheme} (h : Scheme.make .bpe tbl = .ok s) (hi : Indexed tbl) (data : List Str) :
    ∃ seqs, encodeAll s data = .ok seqs ∧ List.Forall₂ (fun l q => s.encode l = .ok (q.map fun (i : Nat) => (i : Int))) data seqs ∧
      (∀ q ∈ seqs, q ≠ []) ∧ ∀ q ∈ seqs, ∀ v ∈ q, v < tbl.length := by
  induction data with
  | nil => exact ⟨[], rfl, .nil, by simp, by simp⟩
  | cons l data ih =>
    obtain ⟨seqs, e, h1, h2, h3⟩ := ih
    obtain ⟨ids, he, hne, hr⟩ := bpe_encode_nonempty h hi l
    refine ⟨ids.map Int.toNat :: seqs, by simp only [encodeAll, he, e], .cons ?_ h1, ?_, ?_⟩
    · rw [he, List.map_map]
      congr 1
      conv_lhs => rw [← List.map_id ids]
      apply List.map_congr_left
      intro i hii
      have := (hr i hii).1
      simp only [id, Function.comp]; omega
    · intro q hq
      rcases List.mem_cons.1 hq with rfl | hq
      · simpa using hne
      · exact h2 q hq
    · intro q hq
      rcases List.mem_cons.1 hq with rfl | hq
      · intro v hv
        obtain ⟨i, hii, rfl⟩ := List.mem_map.1 hv
        have := hr i hii; omega
      · exact h3 q hq

/-! ## C61 -/

theorem count_replaces {a b r : Nat} {s t : List Nat} (h : Replaces a b r s t) (hr : r ∉ s) : (t.count r : Int) ≤ pairOcc (a, b) s := by
  have hcons : ∀ (x : Nat) (l : List Nat), pairOcc (a, b) l ≤ pairOcc (a, b) (x :: l) := by
    intro x l
    cases l with
    | nil => simp [pairOcc]
    | cons y l => rw [pairOcc]; split <;> omega
  induction h with
  | nil => simp [pairOcc]
  | @keep x s t _ ih =>
    simp only [List.mem_cons, not_or] at hr
    have := ih hr.2
    rw [List.count_cons_of_ne (Ne.symm hr.1)]
    exact this.trans (hcons x s)
  | @pair s t _ ih =>
    simp only [List.mem_cons, not_or] at hr
    have h1 := ih hr.2.2
    have h2 := hcons b s
    rw [pairOcc, if_pos rfl, List.count_cons_self]
    push_cast
    omega

theorem symTotal_le_of_merged {p : Nat × Nat} {r : Nat} {C C1 : Corpus} (h : Merged p r C C1) (hC : ∀ s ∈ C, 0 ≤ s.2 ∧ r ∉ s.1) :
    symTotal C1 r ≤ pairCount C p := by
  unfold Merged at h
  induction h with
  | nil => simp [symTotal, pairCount]
  | @cons s t C C1 hx _ ih =>
    have h1 := ih (fun s hs => hC s (by simp [hs]))
    obtain ⟨h2, h3⟩ := hC s (by simp)
    have h4 := count_replaces hx.2.1 h3
    simp only [symTotal, pairCount, List.map_cons, List.sum_cons] at h1 ⊢
    have h5 := mul_le_mul_of_nonneg_left h4 h2
    rw [← hx.1]
    have h6 : pairOcc (p.1, p.2) s.1 = pairOcc p s.1 := rfl
    rw [h6] at h5
    omega

theorem shortfall_zero {v : Nat} : ∀ {ts : List Ty} {Cs : List Corpus}, ¬ Doubles ts v → shortfall v ts Cs = 0 := by
  intro ts
  induction ts with
  | nil => intro Cs _; simp [shortfall]
  | cons t ts ih =>
    intro Cs h
    match Cs with
    | [] => simp [shortfall]
    | [_] => simp [shortfall]
    | C :: C1 :: Cs =>
      have h1 : ¬ t.kids.map (·.idx) = [v, v] := by
        intro e
        apply h
        match hk : t.kids with
        | [] => simp [hk] at e
        | [_] => simp [hk] at e
        | [ta, tb] =>
          simp only [hk, List.map_cons, List.map_nil, List.cons.injEq, and_true] at e
          exact ⟨t, by simp, ta, tb, hk, e⟩
        | _ :: _ :: _ :: _ => simp [hk] at e
      rw [shortfall, if_neg h1, ih (fun ⟨t', ht', hd⟩ => h ⟨t', by simp [ht'], hd⟩)]
      rfl

theorem merged_plain {p : Nat × Nat} {r : Nat} {C C1 : Corpus} (h : Merged p r C C1) {b : Nat} (hr : r < b)
    (hC : ∀ s ∈ C, 0 ≤ s.2 ∧ ∀ v ∈ s.1, v < b) : ∀ s ∈ C1, 0 ≤ s.2 ∧ ∀ v ∈ s.1, v < b := by
  unfold Merged at h
  induction h with
  | nil => simp
  | @cons s t C C1 hx _ ih =>
    intro u hu
    rcases List.mem_cons.1 hu with rfl | hu
    · obtain ⟨h1, h2⟩ := hC s (by simp)
      refine ⟨hx.1 ▸ h1, ?_⟩
      have := hx.2.1
      generalize s.1 = s1 at this h2
      generalize u.1 = u1 at this ⊢
      clear * - this h2 hr
      induction this with
      | nil => simp
      | @keep x s t _ ih =>
        intro v hv
        rcases List.mem_cons.1 hv with rfl | hv
        · exact h2 _ (by simp)
        · exact ih (fun v hv => h2 v (by simp [hv])) v hv
      | @pair s t _ ih =>
        intro v hv
        rcases List.mem_cons.1 hv with rfl | hv
        · exact hr
        · exact ih (fun v hv => h2 v (by simp [hv])) v hv
    · exact ih (fun s hs => hC s (by simp [hs])) u hu

theorem shortfall_nonneg {v : Nat} {ts : List Ty} {Cs : List Corpus} (h : Stages ts Cs) : ∀ {b : Nat} (j : Nat), (∀ i t, ts[i]? = some t → t.idx = b + i) →
    (∀ C, Cs.head? = some C → ∀ s ∈ C, 0 ≤ s.2 ∧ ∀ v ∈ s.1, v < b) → 0 ≤ shortfall v (ts.take j) Cs := by
  induction h with
  | last C => intro b j _ _; simp [shortfall]
  | @step t ta tb ts C C1 Cs hk hm _ ih =>
    intro b j hi hC
    cases j with
    | zero => simp [shortfall]
    | succ j =>
    have hC0 := hC C rfl
    have ht : t.idx = b := by have := hi 0 t rfl; omega
    have h1 := ih (b := b + 1) j (fun i t' ht' => by have := hi (i + 1) t' ht'; omega) (by
      intro C' hC'
      cases hC'
      exact merged_plain hm (by omega) (fun s hs => ⟨(hC0 s hs).1, fun v hv => by have := (hC0 s hs).2 v hv; omega⟩))
    have h2 := symTotal_le_of_merged hm (fun s hs => ⟨(hC0 s hs).1, fun hr => by have := (hC0 s hs).2 _ hr; omega⟩)
    rw [List.take_succ_cons, shortfall, hk]
    simp only [List.map_cons, List.map_nil, List.cons.injEq, and_true]
    split
    · rename_i e
      rw [e.1, e.2] at h2
      omega
    · omega

/-- the loop, for any computation of rows -/
theorem tracking_by {mkRow : Nat → Track → Py TrackRow} {R : (Nat → Int) → Nat → Corpus → TrackRow → Prop} {init ms : List Ty} (h : MergeTable init ms)
    (hR : ∀ {bound : Nat} {sh : Nat → Int} {T : Track} {G : Segs} {g : Dict Nat Int}, TInv (init ++ ms).length sh bound T G g → ∀ {k : Nat}, 0 < k →
      k ≤ (init ++ ms).length → ∃ row, mkRow k T = .ok row ∧ R sh k (corpusOf T.mem G) row) {s : Scheme} (hs : Scheme.make .bpe init = .ok s)
    {ord : Nat → List Nat → List Nat} (hord : ∀ i l, (ord i l).Perm l) (data : List Str) {n : Nat} (hn : n ≤ ms.length) :
    ∃ seqs T0 rows x T Cs C, List.Forall₂ (fun l q => s.encode l = .ok (q.map fun (i : Nat) => (i : Int))) data seqs ∧
      trackInit (init ++ ms).length seqs = .ok T0 ∧ trackMergesBy mkRow ord n ⟨s, ms⟩ T0 = .ok (rows, x, T) ∧ x.scheme.table = init ++ ms.take n ∧
      Stages (ms.take n) (plain seqs :: Cs) ∧ rows.length = n + 1 ∧
      (∀ i row C, rows[i]? = some row → (plain seqs :: Cs)[i]? = some C → R (fun v => shortfall v (ms.take i) (plain seqs :: Cs)) (init.length + i) C row) ∧
      (plain seqs :: Cs).getLast? = some C ∧ T.lens = seqLens C ∧ T.uni.length = (init ++ ms).length ∧
      (∀ v, v < (init ++ ms).length → T.uni[v]! = symTotal C v - shortfall v (ms.take n) (plain seqs :: Cs)) ∧
      ∀ i v, i ≤ n → 0 ≤ shortfall v (ms.take i) (plain seqs :: Cs) ∧ (¬ Doubles (ms.take i) v → shortfall v (ms.take i) (plain seqs :: Cs) = 0) := by
  obtain ⟨h1, _, _, h4, _, _⟩ := make_bpe_ok hs
  obtain ⟨seqs, e1, hf, hne, hv⟩ := encodeAll_ok hs h.initIdx data
  obtain ⟨T0, G, g, e2, hT, hc⟩ := trackInit_ok (total := (init ++ ms).length) (bound := init.length) (by simp) hne hv
  have hpos : 0 < init.length := by
    obtain ⟨t, ht, _⟩ := validateReserved_ok h4 1 (by omega)
    have := (List.getElem?_eq_some_iff.1 ht).1; omega
  obtain ⟨rows, x, T, Cs, G', g', e3, e4, hst, hl, hrows, hfin, hlast⟩ := trackMergesBy_ok (mkRow := mkRow) (R := R) hR hord n (x := ⟨s, ms⟩) (T := T0) (G := G) (g := g)
    (sh := fun _ => 0) (total := (init ++ ms).length) (by rw [h1]; exact hpos) (by rw [h1]; exact h.bufIdx) h.kids hn (by rw [h1]; simp) (by rw [h1]; exact hT)
  simp only [h1, hc, Int.zero_add] at hst hrows hfin hlast
  obtain ⟨x', e5, _, h6, _⟩ := mergeN_ok n (x := ⟨s, ms⟩) (by rw [h1]; exact h.bufIdx) hn
  rw [e4] at e5
  injection e5 with e5
  subst e5
  refine ⟨seqs, T0, rows, x, T, Cs, corpusOf T.mem G', hf, e2, e3, by rw [h6, h1], hst, hl, hrows, hlast, hfin.lens, hfin.uni.1, fun v hv => hfin.counts hv,
    fun i v hi => ⟨?_, shortfall_zero⟩⟩
  have h7 := shortfall_nonneg (v := v) hst i (b := init.length) (fun j t hj => (h.take n).bufIdx j t hj) (by
    intro C hC
    cases hC
    intro q hq
    obtain ⟨q', hq', rfl⟩ := List.mem_map.1 hq
    exact ⟨by simp, hv q' hq'⟩)
  rwa [List.take_take, Nat.min_eq_left hi] at h7

/-- the whole program, for any computation of rows -/
theorem estimate_by {mkRow : Nat → Track → Py TrackRow} {R : (Nat → Int) → Nat → Corpus → TrackRow → Prop} {init ms : List Ty} (h : MergeTable init ms)
    (hR : ∀ {bound : Nat} {sh : Nat → Int} {T : Track} {G : Segs} {g : Dict Nat Int}, TInv (init ++ ms).length sh bound T G g → ∀ {k : Nat}, 0 < k →
      k ≤ (init ++ ms).length → ∃ row, mkRow k T = .ok row ∧ R sh k (corpusOf T.mem G) row) {s : Scheme} (hs : Scheme.make .bpe init = .ok s)
    {ord : Nat → List Nat → List Nat} (hord : ∀ i l, (ord i l).Perm l) (data : List Str) :
    ∃ seqs rows x T Cs C, List.Forall₂ (fun l q => s.encode l = .ok (q.map fun (i : Nat) => (i : Int))) data seqs ∧
      trackEstimateBy mkRow ord (some 1) (init ++ ms) data = .ok (rows, x, T) ∧ Stages ms (plain seqs :: Cs) ∧ rows.length = ms.length + 1 ∧
      (∀ i row C, rows[i]? = some row → (plain seqs :: Cs)[i]? = some C → R (fun v => shortfall v (ms.take i) (plain seqs :: Cs)) (init.length + i) C row) ∧
      (plain seqs :: Cs).getLast? = some C ∧ T.lens = seqLens C ∧
      (∀ v, v < (init ++ ms).length → T.uni[v]! = symTotal C v - shortfall v ms (plain seqs :: Cs)) ∧
      ∀ i v, i ≤ ms.length → 0 ≤ shortfall v (ms.take i) (plain seqs :: Cs) ∧
        (¬ Doubles (ms.take i) v → shortfall v (ms.take i) (plain seqs :: Cs) = 0) := by
  obtain ⟨seqs, T0, rows, x, T, Cs, C, hf, e1, e2, _, hst, hl, hrows, hlast, hlens, _, hu, hsh⟩ := tracking_by h hR hs hord data (le_refl ms.length)
  obtain ⟨seqs', e3, hf', _, _⟩ := encodeAll_ok hs h.initIdx data
  have hse : seqs' = seqs := by
    clear * - hf hf'
    induction hf generalizing seqs' with
    | nil => cases hf'; rfl
    | cons hx _ ih =>
      cases hf' with
      | cons hx' hf' =>
        rw [hx] at hx'
        injection hx' with hx'
        rw [ih _ hf', List.map_injective_iff.2 (fun a b hab => by simpa using hab) hx']
  subst hse
  rw [List.take_length] at hst hu
  refine ⟨seqs', rows, x, T, Cs, C, hf, ?_, hst, hl, hrows, hlast, hlens, hu, hsh⟩
  have hx := xtInit_ok h hs
  have hl1 : some (1 : Int) = some Level.subword := rfl
  have htot : s.table.length + ms.length = (init ++ ms).length := by rw [(make_bpe_ok hs).1]; simp
  simp only [trackEstimateBy, hl1, hx, e3, htot, e1, e2]

/-- C61: tracking `n` merges of any table over any data never fails, in whatever order the sets are visited.  There are corpora, from the encoded data on, each
made from the one before by replacing the two parts of the next merge everywhere; every row reports the number of types and the mean length of its
corpus, and the imbalance of its counts, each too small by the shortfall of the merges so far; after the last merge the lengths are those of the last corpus,
and the unigram counts are its counts less the shortfall.  The shortfall of a symbol is never negative, and 0 unless some merge joins the symbol with
itself. -/
theorem C61_tracking {init ms : List Ty} (h : MergeTable init ms) {s : Scheme} (hs : Scheme.make .bpe init = .ok s)
    {ord : Nat → List Nat → List Nat} (hord : ∀ i l, (ord i l).Perm l) (data : List Str) {n : Nat} (hn : n ≤ ms.length) :
    ∃ seqs T0 rows x T Cs C, List.Forall₂ (fun l q => s.encode l = .ok (q.map fun (i : Nat) => (i : Int))) data seqs ∧
      trackInit (init ++ ms).length seqs = .ok T0 ∧ trackMerges ord n ⟨s, ms⟩ T0 = .ok (rows, x, T) ∧ x.scheme.table = init ++ ms.take n ∧
      Stages (ms.take n) (plain seqs :: Cs) ∧ rows.length = n + 1 ∧
      (∀ i row C, rows[i]? = some row → (plain seqs :: Cs)[i]? = some C → RowOf (fun v => shortfall v (ms.take i) (plain seqs :: Cs)) (init.length + i) C row) ∧
      (plain seqs :: Cs).getLast? = some C ∧ T.lens = seqLens C ∧ T.uni.length = (init ++ ms).length ∧
      (∀ v, v < (init ++ ms).length → T.uni[v]! = symTotal C v - shortfall v (ms.take n) (plain seqs :: Cs)) ∧
      ∀ i v, i ≤ n → 0 ≤ shortfall v (ms.take i) (plain seqs :: Cs) ∧ (¬ Doubles (ms.take i) v → shortfall v (ms.take i) (plain seqs :: Cs) = 0) :=
  tracking_by (mkRow := trackRow) (R := RowOf) h (fun h _ hk hkt => trackRow_ok h hk hkt) hs hord data hn

/-- C61: `estimate` tracks all the merges of the file. -/
theorem C61_estimate {init ms : List Ty} (h : MergeTable init ms) {s : Scheme} (hs : Scheme.make .bpe init = .ok s)
    {ord : Nat → List Nat → List Nat} (hord : ∀ i l, (ord i l).Perm l) (data : List Str) :
    ∃ seqs rows x T Cs C, List.Forall₂ (fun l q => s.encode l = .ok (q.map fun (i : Nat) => (i : Int))) data seqs ∧
      trackEstimate ord (some 1) (init ++ ms) data = .ok (rows, x, T) ∧ Stages ms (plain seqs :: Cs) ∧ rows.length = ms.length + 1 ∧
      (∀ i row C, rows[i]? = some row → (plain seqs :: Cs)[i]? = some C → RowOf (fun v => shortfall v (ms.take i) (plain seqs :: Cs)) (init.length + i) C row) ∧
      (plain seqs :: Cs).getLast? = some C ∧ T.lens = seqLens C ∧
      (∀ v, v < (init ++ ms).length → T.uni[v]! = symTotal C v - shortfall v ms (plain seqs :: Cs)) ∧
      ∀ i v, i ≤ ms.length → 0 ≤ shortfall v (ms.take i) (plain seqs :: Cs) ∧
        (¬ Doubles (ms.take i) v → shortfall v (ms.take i) (plain seqs :: Cs) = 0) :=
  estimate_by (mkRow := trackRow) (R := RowOf) h (fun h _ hk hkt => trackRow_ok h hk hkt) hs hord data

/-- C61: the counts and the imbalances are the true ones as long as no merge joins a symbol with itself.  Missing: such merges, see `C61_tracking` and
`C61_repeats_refuted`. -/
theorem C61_true_partial {init ms : List Ty} (h : MergeTable init ms) {s : Scheme} (hs : Scheme.make .bpe init = .ok s)
    {ord : Nat → List Nat → List Nat} (hord : ∀ i l, (ord i l).Perm l) (data : List Str) (hd : ∀ v, ¬ Doubles ms v) :
    ∃ seqs rows x T Cs C, List.Forall₂ (fun l q => s.encode l = .ok (q.map fun (i : Nat) => (i : Int))) data seqs ∧
      trackEstimate ord (some 1) (init ++ ms) data = .ok (rows, x, T) ∧ Stages ms (plain seqs :: Cs) ∧ rows.length = ms.length + 1 ∧
      (∀ i row C, rows[i]? = some row → (plain seqs :: Cs)[i]? = some C → RowOf (fun _ => 0) (init.length + i) C row) ∧
      (plain seqs :: Cs).getLast? = some C ∧ ∀ v, v < (init ++ ms).length → T.uni[v]! = symTotal C v := by
  obtain ⟨seqs, rows, x, T, Cs, C, h1, h2, h3, h4, h5, h6, _, h8, _⟩ := C61_estimate h hs hord data
  have hz : ∀ i v, shortfall v (ms.take i) (plain seqs :: Cs) = 0 := fun i v =>
    shortfall_zero (fun ⟨t, ht, hx⟩ => hd v ⟨t, List.mem_of_mem_take ht, hx⟩)
  refine ⟨seqs, rows, x, T, Cs, C, h1, h2, h3, h4, fun i row C hr hC => ?_, h6, fun v hv => ?_⟩
  · have := h5 i row C hr hC
    simpa only [hz] using this
  · have := h8 v hv
    rwa [shortfall_zero (hd v), Int.sub_zero] at this

/-! ## C70 -/

theorem idsOf_congr {s s' : Scheme} (hk : s.kind = s'.kind) : ∀ {ps : List Str}, (∀ p ∈ ps, Dict.get? s.s2i p = Dict.get? s'.s2i p) → s.idsOf ps = s'.idsOf ps := by
  intro ps
  induction ps with
  | nil => intro _; rfl
  | cons p ps ih =>
    intro h
    have h1 := h p (by simp)
    have h2 := ih (fun q hq => h q (by simp [hq]))
    have h3 : s.unk = s'.unk := by simp only [Scheme.unk, hk]
    simp only [Scheme.idsOf, hk, h1, h2, h3]

theorem idxOf?_nodup {l : List Str} (h : l.Nodup) {i : Nat} {w : Str} (hw : l[i]? = some w) : l.idxOf? w = some i := by
  cases hx : l.idxOf? w with
  | none =>
    rw [List.idxOf?_eq_none_iff] at hx
    exact absurd (List.mem_of_getElem? hw) hx
  | some j =>
    have hj := idxOf?_some_get hx
    obtain ⟨hi', e1⟩ := List.getElem?_eq_some_iff.1 hw
    obtain ⟨hj', e2⟩ := List.getElem?_eq_some_iff.1 hj
    rw [(h.getElem_inj_iff).1 (e1.trans e2.symm)]

theorem validateReserved_append {tbl l : List Ty} (h : validateReserved tbl = .ok ()) : validateReserved (tbl ++ l) = .ok () := by
  have key : ∀ (rs : List Str) (i : Nat), validateReserved.go tbl rs i = .ok () → validateReserved.go (tbl ++ l) rs i = .ok () := by
    intro rs
    induction rs with
    | nil => intro i _; rfl
    | cons r rs ih =>
      intro i h
      simp only [validateReserved.go] at h ⊢
      cases ht : tbl[i]? with
      | none => rw [ht] at h; simp at h
      | some t =>
        rw [ht] at h
        rw [List.getElem?_append_left (List.getElem?_eq_some_iff.1 ht).1, ht]
        simp only at h ⊢
        split
        · rename_i hr; rw [if_pos hr] at h; exact ih _ h
        · rename_i hr; rw [if_neg hr] at h; simp at h
  exact key _ _ h

/-- C70: after `n` merges the table is extended by them; if names are not empty, a BPE scheme can be built from it; any such scheme splits every line into the
same pieces and decodes every sequence of ids the same way, and if no two types have the same name it gives the same ids.  Missing: the ids when
names repeat, see `C70_duplicates_refuted`. -/
theorem C70_merges_partial {init ms : List Ty} (h : MergeTable init ms) {s : Scheme} (hs : Scheme.make .bpe init = .ok s) {n : Nat} (hn : n ≤ ms.length) :
    ∃ x x', xtInit (some 1) (init ++ ms) = .ok x ∧ x.mergeN n = .ok x' ∧ x'.scheme.table = init ++ ms.take n ∧ x'.buffer = ms.drop n ∧
      ((∀ t ∈ ms, t.name ≠ []) → ∃ s', Scheme.make .bpe (init ++ ms.take n) = .ok s') ∧
      ∀ s', Scheme.make .bpe (init ++ ms.take n) = .ok s' →
        (∀ line, x'.scheme.encodeStr line = s'.encodeStr line) ∧ (∀ ids, x'.scheme.decode ids = s'.decode ids) ∧
        ((names (init ++ ms.take n)).Nodup → ∀ line, x'.scheme.encode line = s'.encode line) := by
  obtain ⟨h1, h2, h3, h4, h5, h6⟩ := make_bpe_ok hs
  obtain ⟨x', e, hb, ht, hk, hr, hd⟩ := mergeN_ok n (x := ⟨s, ms⟩) (by rw [h1]; exact h.bufIdx) hn
  simp only [h1, h2, h5] at hb ht hk hr hd
  refine ⟨⟨s, ms⟩, x', xtInit_ok h hs, e, ht, hb, ?_, ?_⟩
  · intro hne
    have hroot : (buildTrie (init ++ ms.take n)).data = none := by
      have hl := lookup_buildTrie (init ++ ms.take n) []
      have hl0 := lookup_buildTrie init []
      have hnil : ∀ r : Trie Ty, r.lookup [] = r.data := by intro r; simp [Trie.lookup]
      rw [hnil] at hl hl0
      rw [hl]
      rw [h6] at hl0
      simp only [lastNamed, List.filter_append] at hl0 ⊢
      have : (ms.take n).filter (fun t => decide (t.name = [])) = [] := by
        rw [List.filter_eq_nil_iff]
        intro t ht
        simpa using hne t (List.mem_of_mem_take ht)
      rw [this, List.append_nil]; exact hl0.symm
    refine ⟨{ kind := .bpe, table := init ++ ms.take n, s2i := strToIdxFirst ((init ++ ms.take n).map (·.name)) 0 [], root := buildTrie (init ++ ms.take n) }, ?_⟩
    simp only [Scheme.make, validateReserved_append h4, hroot, Option.isSome_none, Bool.false_eq_true, if_false]
  · intro s' hs'
    obtain ⟨g1, g2, g3, g4, g5, g6⟩ := make_bpe_ok hs'
    have hroot : x'.scheme.root = s'.root := by rw [hr, g5, buildTrie, buildTrie, List.foldl_append]
    have hstr : ∀ line, x'.scheme.encodeStr line = s'.encodeStr line := by
      intro line
      simp only [Scheme.encodeStr, hk, g2, bpeIds, hroot, ht, g1]
    refine ⟨hstr, ?_, ?_⟩
    · intro ids
      simp only [Scheme.decode, Scheme.decodeStr, ht, hk, g1, g2]
    · intro hnd line
      simp only [Scheme.encode, hstr line]
      cases s'.encodeStr line with
      | error e => rfl
      | ok ps =>
        simp only
        apply idsOf_congr (by rw [hk, g2])
        intro p _
        rw [hd p, g3.get p]
        simp only [Scheme.idxToStr, g1]
        change _ = (names (init ++ ms.take n)).idxOf? p
        cases hl : lastNamed (ms.take n) p with
        | some t =>
          obtain ⟨hm, hn'⟩ := lastNamed_some hl
          simp only
          symm
          apply idxOf?_nodup hnd
          have := (h.take n).indexed.get (List.mem_append_right init hm)
          simp only [names, List.getElem?_map, this, Option.map_some, hn']
        | none =>
          simp only
          rw [h3.get p]
          simp only [Scheme.idxToStr, h1]
          have hnm := lastNamed_none hl
          by_cases hp : p ∈ names init
          · cases hx : (init.map (·.name)).idxOf? p with
            | none => rw [List.idxOf?_eq_none_iff] at hx; exact absurd hp hx
            | some i =>
              symm
              apply idxOf?_nodup hnd
              have := idxOf?_some_get hx
              simp only [names, List.map_append]
              rw [List.getElem?_append_left (List.getElem?_eq_some_iff.1 this).1]; exact this
          · have hp' : (init.map (·.name)).idxOf? p = none := List.idxOf?_eq_none_iff.2 hp
            rw [hp', eq_comm, List.idxOf?_eq_none_iff]
            simp only [names, List.map_append, List.mem_append, not_or]
            refine ⟨hp, ?_⟩
            intro hp2
            obtain ⟨t, ht2, hpn⟩ := List.mem_map.1 hp2
            exact hnm t ht2 hpn

/-- C70: `merge` fails when nothing is left or when the next merge is not numbered by the size of the table. -/
theorem C70_merge_refuses (x : CodecXt) : (x.buffer = [] → x.merge = .error .assertion) ∧
    (∀ t rest, x.buffer = t :: rest → t.idx ≠ x.scheme.table.length → x.merge = .error .assertion) := by
  constructor
  · intro h; simp only [CodecXt.merge, h]
  · intro t rest h hne
    simp only [CodecXt.merge, h]
    rw [if_neg (Ne.symm hne)]

/-! ## examples and counterexamples -/

/-- a merge of two types of a table -/
def exMerge (tbl : List Ty) (i j : Nat) : Ty :=
  let a := tbl[i]?.getD ⟨[], 0, 0, 0, []⟩
  let b := tbl[j]?.getD ⟨[], 0, 0, 0, []⟩
  ⟨a.name ++ b.name, Level.subword, tbl.length, 1, [a, b]⟩

/-- the merges of the given pairs, one after the other -/
def exMerges (tbl : List Ty) : List (Nat × Nat) → List Ty
  | [] => []
  | p :: ps => exMerge tbl p.1 p.2 :: exMerges (tbl ++ [exMerge tbl p.1 p.2]) ps

/-- executable form of `MergeTable` for examples -/
def mergeTableB (init ms : List Ty) : Bool :=
  ((init ++ ms).zipIdx.all fun p => p.1.idx == p.2) && (init.all fun t => decide (t.level < 1)) && (ms.all fun t => decide (1 ≤ t.level)) &&
    ms.all fun t => match t.kids with
      | [ta, tb] => decide (ta.idx < t.idx) && decide (tb.idx < t.idx)
      | _ => false

theorem mergeTable_of {init ms : List Ty} (h : mergeTableB init ms = true) : MergeTable init ms := by
  simp only [mergeTableB, Bool.and_eq_true, List.all_eq_true, decide_eq_true_eq, beq_iff_eq] at h
  obtain ⟨⟨⟨h1, h2⟩, h3⟩, h4⟩ := h
  refine ⟨?_, h2, h3, ?_⟩
  · intro i t ht
    exact h1 (t, i) (List.mem_zipIdx_iff_getElem?.2 ht)
  · intro t ht
    have := h4 t ht
    split at this
    · rename_i ta tb hk
      simp only [Bool.and_eq_true, decide_eq_true_eq] at this
      exact ⟨ta, tb, hk, this⟩
    · simp at this

/-- letters and three merges: `ab`, `ab▁`, `bab▁` -/
def exTrackInit : List Ty := exTable Level.char ["a", "b"]
def exTrackMerges : List Ty := exMerges exTrackInit [(6, 7), (8, 5), (7, 9)]

example : MergeTable exTrackInit exTrackMerges := mergeTable_of (by decide +kernel)

example : (withScheme .bpe exTrackInit fun _ => .ok true) = .ok true := by decide +kernel

/-- the corpora of "abab b" and "ab" under the three merges; the last unigram counts and lengths -/
example : (match trackEstimate ordRev (some 1) (exTrackInit ++ exTrackMerges) [lit "abab b", lit "ab"] with
    | .error _ => none
    | .ok (rows, _, T) => some (rows.map (·.1), T.lens, T.uni)) =
      some ([8, 9, 10, 11], [4, 1], [0, 0, 0, 0, 0, 1, 0, 1, 1, 2, 0]) := by decide +kernel

/-- one of the two occurrences of `a a` in "aaa" is left: the count of `a` is too small by 2, that is -1 in place of 1 -/
example : shortfall 6 (exMerges (exTable Level.char ["a"]) [(6, 6)]) [plain [[6, 6, 6, 5]], plain [[7, 6, 5]]] = 2 ∧
    (match trackEstimate ordRev (some 1) (exTable Level.char ["a"] ++ exMerges (exTable Level.char ["a"]) [(6, 6)]) [lit "aaa"] with
    | .error _ => none
    | .ok (_, _, T) => some T.uni) = some [0, 0, 0, 0, 0, 1, -1, 1] := by decide +kernel

/-- no merge of the example joins a symbol with itself -/
example : ∀ t ∈ exTrackMerges, ∀ v ∈ List.range 11, t.kids.map (·.idx) ≠ [v, v] := by decide +kernel

/-- C61 is false for the unigram counts: line 171 of bpe_len.py subtracts again what it should give back.  After merging `a a` in "aaa" the count of `a` is -1,
which is not the count of `a` in any corpus. -/
theorem C61_repeats_refuted : ∃ (init ms : List Ty) (s : Scheme) (rows : List TrackRow) (x : CodecXt) (T : Track), MergeTable init ms ∧
    Scheme.make .bpe init = .ok s ∧ trackEstimate ordId (some 1) (init ++ ms) [lit "aaa"] = .ok (rows, x, T) ∧ T.uni[6]! = -1 ∧
    ∀ C : Corpus, (∀ s ∈ C, 0 ≤ s.2) → T.uni[6]! ≠ symTotal C 6 := by
  have h : (match Scheme.make .bpe (exTable Level.char ["a"]) with
    | .error _ => false
    | .ok _ => match trackEstimate ordId (some 1) (exTable Level.char ["a"] ++ exMerges (exTable Level.char ["a"]) [(6, 6)]) [lit "aaa"] with
      | .error _ => false
      | .ok (_, _, T) => decide (T.uni[6]! = -1)) = true := by decide +kernel
  cases hs : Scheme.make .bpe (exTable Level.char ["a"]) with
  | error e => rw [hs] at h; simp at h
  | ok s =>
    cases ht : trackEstimate ordId (some 1) (exTable Level.char ["a"] ++ exMerges (exTable Level.char ["a"]) [(6, 6)]) [lit "aaa"] with
    | error e => rw [hs, ht] at h; simp at h
    | ok r =>
      obtain ⟨rows, x, T⟩ := r
      rw [hs, ht] at h
      simp only [decide_eq_true_eq] at h
      refine ⟨_, _, s, rows, x, T, mergeTable_of (by decide +kernel), hs, ht, h, ?_⟩
      intro C hC he
      have : 0 ≤ symTotal C 6 := by
        apply List.sum_nonneg
        intro z hz
        obtain ⟨q, hq, rfl⟩ := List.mem_map.1 hz
        exact mul_nonneg (hC q hq) (by positivity)
      omega

/-- two merges with the same name `abc` -/
def exDupInit : List Ty := exTable Level.char ["a", "b", "c"]
def exDupMerges : List Ty := exMerges exDupInit [(6, 7), (7, 8), (9, 8), (6, 10)]

/-- C70 is false for the ids when two merges have the same name: `merge` overwrites the id of the name, a scheme built from the table keeps the first. -/
theorem C70_duplicates_refuted : ∃ (init ms : List Ty) (s s' : Scheme) (x : CodecXt) (line : Str) (ids ids' : List Int), MergeTable init ms ∧
    Scheme.make .bpe init = .ok s ∧ (⟨s, ms⟩ : CodecXt).mergeN ms.length = .ok x ∧ Scheme.make .bpe (init ++ ms) = .ok s' ∧
    x.scheme.encode line = .ok ids ∧ s'.encode line = .ok ids' ∧ ids ≠ ids' := by
  have h : (match Scheme.make .bpe exDupInit with
    | .error _ => false
    | .ok s => match (⟨s, exDupMerges⟩ : CodecXt).mergeN exDupMerges.length with
      | .error _ => false
      | .ok x => match Scheme.make .bpe (exDupInit ++ exDupMerges) with
        | .error _ => false
        | .ok s' => match x.scheme.encode (lit "abc"), s'.encode (lit "abc") with
          | .ok i, .ok j => decide (i ≠ j)
          | _, _ => false) = true := by decide +kernel
  cases h1 : Scheme.make .bpe exDupInit with
  | error e => rw [h1] at h; simp at h
  | ok s =>
    rw [h1] at h
    cases h2 : (⟨s, exDupMerges⟩ : CodecXt).mergeN exDupMerges.length with
    | error e => simp only [h2] at h; simp at h
    | ok x =>
      simp only [h2] at h
      cases h3 : Scheme.make .bpe (exDupInit ++ exDupMerges) with
      | error e => rw [h3] at h; simp at h
      | ok s' =>
        rw [h3] at h
        cases h4 : x.scheme.encode (lit "abc") with
        | error e => simp only [h4] at h; simp at h
        | ok i =>
          cases h5 : s'.encode (lit "abc") with
          | error e => simp only [h4, h5] at h; simp at h
          | ok j =>
            simp only [h4, h5, decide_eq_true_eq] at h
            exact ⟨_, _, s, s', x, lit "abc", i, j, mergeTable_of (by decide +kernel), h1, h2, h3, h4, h5, h⟩

example : (∀ t ∈ exTrackMerges, t.name ≠ []) ∧ (names (exTrackInit ++ exTrackMerges.take 2)).Nodup := by decide +kernel

end Verif
