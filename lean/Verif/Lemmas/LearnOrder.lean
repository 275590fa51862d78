import Verif.Lemmas.Learn
/-! # The initial vocabulary and the order of the terms -/

namespace Verif

/-- two lists with the same frequencies, position by position -/
def SameFreqs (S T : List (Str × Int)) : Prop := S.map (·.2) = T.map (·.2)

theorem SameFreqs.take {S T : List (Str × Int)} (h : SameFreqs S T) (k : Nat) : SameFreqs (S.take k) (T.take k) := by
  unfold SameFreqs at *; rw [List.map_take, List.map_take, h]

theorem SameFreqs.drop {S T : List (Str × Int)} (h : SameFreqs S T) (k : Nat) : SameFreqs (S.drop k) (T.drop k) := by
  unfold SameFreqs at *; rw [List.map_drop, List.map_drop, h]

theorem SameFreqs.length_eq {S T : List (Str × Int)} (h : SameFreqs S T) : S.length = T.length := by
  have := congrArg List.length h; simpa using this

theorem SameFreqs.filter_length {S T : List (Str × Int)} (h : SameFreqs S T) (p : Int → Bool) :
    (S.filter fun x => p x.2).length = (T.filter fun x => p x.2).length := by
  have e : ∀ l : List (Str × Int), (l.filter fun x => p x.2).length = ((l.map (·.2)).filter p).length := by
    intro l; rw [List.filter_map, List.length_map]; rfl
  rw [e, e, h]

/-- sorting dicts with the same entries gives the same frequencies -/
theorem sortByFreq_same {d d' : Dict Str Int} (h : d.Perm d') : SameFreqs (sortByFreq d) (sortByFreq d') := by
  have hp : ((sortByFreq d).map (·.2)).Perm ((sortByFreq d').map (·.2)) :=
    ((sortByFreq_perm d).trans (h.trans (sortByFreq_perm d').symm)).map _
  refine hp.eq_of_pairwise (le := fun a b : Int => b ≤ a) ?_ ?_ ?_
  · intro a b _ _ h1 h2; omega
  · exact List.pairwise_map.2 (sortByFreq_sorted d)
  · exact List.pairwise_map.2 (sortByFreq_sorted d')

/-- distinct frequencies: the same list -/
theorem sortByFreq_eq {d d' : Dict Str Int} (h : d.Perm d') (hd : (d.map (·.2)).Nodup) : sortByFreq d = sortByFreq d' := by
  have hp : (sortByFreq d).Perm (sortByFreq d') := (sortByFreq_perm d).trans (h.trans (sortByFreq_perm d').symm)
  have hnd : ((sortByFreq d).map (·.2)).Nodup := ((sortByFreq_perm d).map _).nodup_iff.2 hd
  refine hp.eq_of_pairwise (le := fun a b : Str × Int => b.2 ≤ a.2) ?_ (sortByFreq_sorted d) (sortByFreq_sorted d')
  intro a b ha hb h1 h2
  exact List.inj_on_of_nodup_map hnd ha (hp.mem_iff.2 hb) (by omega)

/-- terms more frequent than one of the first `k` are among the first `k` in every sorted order -/
theorem mem_take_same {S T : List (Str × Int)} (h : SameFreqs S T) (hp : S.Perm T) (hT : T.Pairwise (fun a b => b.2 ≤ a.2)) {k : Nat}
    {p q : Str × Int} (h1 : p ∈ S.take k) (h2 : q ∈ S.take k) (hlt : q.2 < p.2) : p ∈ T.take k := by
  have hm : p ∈ T := hp.mem_iff.1 (List.mem_of_mem_take h1)
  rw [← List.take_append_drop k T] at hm hT
  rcases List.mem_append.1 hm with hm | hm
  · exact hm
  · have hq : q.2 ∈ (T.take k).map (·.2) := by
      rw [← (h.take k : _ = _)]
      exact List.mem_map.2 ⟨q, h2, rfl⟩
    obtain ⟨r, hr, e⟩ := List.mem_map.1 hq
    have := (List.pairwise_append.1 hT).2.2 r hr p hm
    omega

theorem trimTerms_same {S T : List (Str × Int)} (h : SameFreqs S T) (hS : S.Pairwise (fun a b => b.2 ≤ a.2))
    (hT : T.Pairwise (fun a b => b.2 ≤ a.2)) (mf vs : Int) :
    ∃ k u, trimTerms S mf vs = (S.take k, u) ∧ trimTerms T mf vs = (T.take k, u) := by
  have hl : (trimTerms S mf vs).1.length = (trimTerms T mf vs).1.length := by
    have e1 := h.filter_length (fun f => decide (mf ≤ f))
    have e2 := h.length_eq
    simp only [trimTerms]
    split
    · rw [e1]; split
      · simp only [List.length_take, e1]
      · exact e1
    · rw [e2]; split
      · simp only [List.length_take, e2]
      · exact e2
  have pS := (List.prefix_iff_eq_take.1 (trimTerms_prefix hS mf vs))
  have pT := (List.prefix_iff_eq_take.1 (trimTerms_prefix hT mf vs))
  have mS := trimTerms_mass S mf vs
  have mT := trimTerms_mass T mf vs
  rw [pS] at mS
  rw [pT, ← hl, ← (h.take _ : _ = _), ← (h : _ = _)] at mT
  refine ⟨(trimTerms S mf vs).1.length, (trimTerms S mf vs).2, ?_, ?_⟩
  · exact Prod.ext pS rfl
  · refine Prod.ext (by rw [hl]; exact pT) ?_
    omega

theorem popReserved_perm {tf tf' : Dict Str Int} (h : tf.Perm tf') (hn : (Dict.keys tf).Nodup) : (popReserved tf).Perm (popReserved tf') := by
  have hn' : (Dict.keys tf').Nodup := (h.map _).nodup_iff.1 hn
  refine (List.perm_ext_iff_of_nodup (List.Nodup.of_map _ (nodup_popReserved hn)) (List.Nodup.of_map _ (nodup_popReserved hn'))).2 ?_
  rintro ⟨n, f⟩
  rw [mem_popReserved hn, mem_popReserved hn', h.mem_iff]

theorem get?_perm {tf tf' : Dict Str Int} (h : tf.Perm tf') (hn : (Dict.keys tf).Nodup) (n : Str) : Dict.get? tf n = Dict.get? tf' n := by
  have hn' : (Dict.keys tf').Nodup := (h.map _).nodup_iff.1 hn
  apply Option.ext
  intro f
  rw [Dict.get?_eq_some_iff hn, Dict.get?_eq_some_iff hn', h.mem_iff]

theorem filterCoverage_same {A : Acc} {d d' : Dict Str Int} (h : d.Perm d') (hn : (Dict.keys d).Nodup) (hpos : ∀ p ∈ d, 1 ≤ p.2)
    {cov : A.F} (hv : A.valid cov = true) :
    ∃ k u, filterCoverage A d cov = .ok ((sortByFreq d).take k, u) ∧ filterCoverage A d' cov = .ok ((sortByFreq d').take k, u) := by
  have hn' : (Dict.keys d').Nodup := (h.map _).nodup_iff.1 hn
  have hs := sortByFreq_same h
  have htot : d ≠ [] → isum (Dict.values d) ≠ 0 := by
    intro hne
    cases d with
    | nil => exact absurd rfl hne
    | cons p l =>
      have h1 := hpos p (by simp)
      have h2 : 0 ≤ isum (Dict.values l) := isum_nonneg (by
        intro x hx
        obtain ⟨q, hq, rfl⟩ := List.mem_map.1 hx
        have := hpos q (by simp [hq])
        omega)
      simp only [Dict.values, List.map_cons, isum, List.foldr_cons] at h2 ⊢
      omega
  have ev : isum (Dict.values d) = isum (Dict.values d') := isum_perm (h.map _)
  have hnil : d = [] ↔ d' = [] := ⟨fun e => by subst e; exact h.symm.eq_nil, fun e => by subst e; exact h.eq_nil⟩
  obtain ⟨k, a1, a2, a3, a4, a5⟩ := filterCoverage_prefix A hn htot hv
  obtain ⟨k', b1, b2, b3, b4, b5⟩ := filterCoverage_prefix A hn' (fun hne => ev ▸ htot (fun e => hne (hnil.1 e))) hv
  have ef : ∀ j, ((sortByFreq d).take j).foldl (fun c p => A.addRatio c p.2 (isum (Dict.values d))) A.zero =
      ((sortByFreq d').take j).foldl (fun c p => A.addRatio c p.2 (isum (Dict.values d'))) A.zero := by
    intro j
    have e : ∀ l : List (Str × Int), l.foldl (fun c p => A.addRatio c p.2 (isum (Dict.values d))) A.zero =
        (l.map (·.2)).foldl (fun c f => A.addRatio c f (isum (Dict.values d))) A.zero := by
      intro l; rw [List.foldl_map]
    rw [← ev, e, e, (hs.take j : _ = _)]
  have hl := h.length_eq
  have hk : k = k' := by
    by_cases hd : d = []
    · subst hd
      have := hnil.1 rfl
      subst this
      simp only [List.length_nil] at a1 b1
      omega
    · have p1 := a2 hd
      have p2 := b2 (fun e => hd (hnil.2 e))
      rcases Nat.lt_trichotomy k k' with hlt | he | hlt
      · have h1 := a5 (by omega)
        have h2 := b4 k p1 hlt
        rw [ef, h2] at h1; cases h1
      · exact he
      · have h1 := b5 (by omega)
        have h2 := a4 k' p2 hlt
        rw [← ef, h2] at h1; cases h1
  subst hk
  exact ⟨k, _, a3, by rw [b3, ← (hs.drop k : _ = _)]⟩

/-- the initial vocabulary of dicts with the same entries: the same reserved types, and as many of the sorted terms -/
theorem getInitVocab_same {A : Acc} {level : Int} {tf tf' : Dict Str Int} (h : tf.Perm tf') (hn : (Dict.keys tf).Nodup) (hpos : ∀ p ∈ tf, 1 ≤ p.2)
    (cov : Option A.F) (lc : Option Int) (mf vs : Int) :
    getInitVocab A level tf cov lc mf vs = .error .assertion ∧ getInitVocab A level tf' cov lc mf vs = .error .assertion ∨
    ∃ k R, R.length = 6 ∧ getInitVocab A level tf cov lc mf vs = .ok (R ++ ((sortByFreq (popReserved tf)).take k).zipIdx.map fun (p, i) =>
          { name := p.1, level := level, idx := i + 6, freq := p.2, kids := [] }) ∧
      getInitVocab A level tf' cov lc mf vs = .ok (R ++ ((sortByFreq (popReserved tf')).take k).zipIdx.map fun (p, i) =>
          { name := p.1, level := level, idx := i + 6, freq := p.2, kids := [] }) := by
  have hp := popReserved_perm h hn
  have hs := sortByFreq_same hp
  have hR : ∀ u, updateReserved tf u lc = updateReserved tf' u lc := by
    intro u
    have e : ∀ i n, reservedFreq tf u lc i n = reservedFreq tf' u lc i n := by
      intro i n; unfold reservedFreq; rw [get?_perm h hn]
    unfold updateReserved
    simp only [e]
  have hsort : ∀ (d : Dict Str Int) k, sortByFreq ((sortByFreq d).take k) = (sortByFreq d).take k :=
    fun d k => sortByFreq_of_sorted ((sortByFreq_sorted d).sublist (List.take_sublist _ _))
  have hst : ∀ (d : Dict Str Int) k, ((sortByFreq d).take k).Pairwise (fun a b => b.2 ≤ a.2) :=
    fun d k => (sortByFreq_sorted d).sublist (List.take_sublist _ _)
  cases cov with
  | none =>
    obtain ⟨k, u, e1, e2⟩ := trimTerms_same hs (sortByFreq_sorted _) (sortByFreq_sorted _) mf vs
    right
    refine ⟨k, updateReserved tf (0 + u) lc, rfl, ?_, ?_⟩
    · simp only [getInitVocab, e1]
    · simp only [getInitVocab, e2, hR]
  | some c =>
    by_cases hv : A.valid c = true
    · obtain ⟨k, u, e1, e2⟩ := filterCoverage_same hp (nodup_popReserved hn)
        (fun p hp => hpos p ((popReserved_sublist tf).subset hp)) hv
      obtain ⟨k2, u2, g1, g2⟩ := trimTerms_same (hs.take k) (hst _ k) (hst _ k) mf vs
      right
      refine ⟨min k2 k, updateReserved tf (u + u2) lc, rfl, ?_, ?_⟩
      · simp only [getInitVocab, e1, hsort, g1, List.take_take]
      · simp only [getInitVocab, e2, hsort, g2, hR, List.take_take]
    · left
      simp [getInitVocab, filterCoverage, hv]

end Verif
