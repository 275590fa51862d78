import Verif.Props.Order
/-!
# Property C114: asking for more only adds types at the end

-/

namespace Verif
open Spec

/-- a coverage `cov'` that asks for at least as much as `cov`: none at all, or one that is reached later -/
def Spec.Covers (A : Acc) (cov cov' : Option A.F) : Prop :=
  cov' = none ∨ ∃ c c', cov = some c ∧ cov' = some c' ∧ ∀ x, A.ge x c' = true → A.ge x c = true

/-- a size limit that allows at least as much: none at all, or a greater one -/
def Spec.Allows (vs vs' : Int) : Prop := vs' ≤ 0 ∨ 6 ≤ vs ∧ vs ≤ vs'

theorem getInitVocab_cut {A : Acc} {level : Int} {tf : Dict Str Int} {cov : Option A.F} {lc : Option Int} {mf vs : Int}
    {vocab : List Ty} (hnd : (Dict.keys tf).Nodup) (h : getInitVocab A level tf cov lc mf vs = .ok vocab) :
    ∃ k u, vocab = updateReserved tf u lc ++ (trimTerms ((sortByFreq (popReserved tf)).take k) mf vs).1.zipIdx.map
        (fun (p, i) => { name := p.1, level := level, idx := i + 6, freq := p.2, kids := [] }) ∧
      (cov = none → (popReserved tf).length ≤ k) ∧
      ∀ c, cov = some c → (popReserved tf ≠ [] → 0 < k) ∧
        (∀ j, 0 < j → j < k → A.ge (((sortByFreq (popReserved tf)).take j).foldl
          (fun c p => A.addRatio c p.2 (isum (Dict.values (popReserved tf)))) A.zero) c = false) ∧
        (k < (popReserved tf).length → A.ge (((sortByFreq (popReserved tf)).take k).foldl
          (fun c p => A.addRatio c p.2 (isum (Dict.values (popReserved tf)))) A.zero) c = true) := by
  have hpn := nodup_popReserved hnd
  simp only [getInitVocab] at h
  cases cov with
  | none =>
    simp only [Except.ok.injEq] at h
    refine ⟨(sortByFreq (popReserved tf)).length, 0 + (trimTerms (sortByFreq (popReserved tf)) mf vs).2, ?_, ?_, by simp⟩
    · rw [List.take_length]; exact h.symm
    · intro _; rw [(sortByFreq_perm _).length_eq]
  | some c =>
    simp only at h
    have hval : A.valid c = true := by
      by_cases hv : A.valid c = true
      · exact hv
      · simp [filterCoverage, hv] at h
    by_cases hz : popReserved tf ≠ [] ∧ isum (Dict.values (popReserved tf)) = 0
    · rw [filterCoverage_zero A hz.1 hz.2 hval] at h; cases h
    · obtain ⟨k, h1, h2, h3, h4, h5⟩ := filterCoverage_prefix A hpn (by tauto) hval
      rw [h3] at h
      simp only [Except.ok.injEq] at h
      rw [sortByFreq_of_sorted ((sortByFreq_sorted _).sublist (List.take_sublist _ _))] at h
      refine ⟨k, _, h.symm, by simp, fun c' hc => ?_⟩
      cases hc
      exact ⟨h2, h4, h5⟩

theorem trimTerms_le {S : List (Str × Int)} (hS : S.Pairwise (fun a b => b.2 ≤ a.2)) {k k' : Nat} (hk : S.take k <+: S.take k') {mf mf' vs vs' : Int}
    (hm : mf' ≤ mf) (hs : Allows vs vs') : (trimTerms (S.take k) mf vs).1 <+: (trimTerms (S.take k') mf' vs').1 := by
  have hsort : ∀ k, (S.take k).Pairwise (fun a b => b.2 ≤ a.2) := fun k => hS.sublist (List.take_sublist _ _)
  have hF : ∀ k mf, (if 1 < mf then (S.take k).filter (fun p => decide (mf ≤ p.2)) else S.take k) <+: S := by
    intro k mf
    split
    · exact (filter_prefix_of_sorted (hsort k) mf).trans (List.take_prefix _ _)
    · exact List.take_prefix _ _
  have hsub : (if 1 < mf then (S.take k).filter (fun p => decide (mf ≤ p.2)) else S.take k).Sublist
      (if 1 < mf' then (S.take k').filter (fun p => decide (mf' ≤ p.2)) else S.take k') := by
    split
    · split
      · have h1 : ((S.take k).filter (fun p => decide (mf ≤ p.2))).Sublist ((S.take k).filter (fun p => decide (mf' ≤ p.2))) :=
          List.monotone_filter_right _ fun p hp => by simp only [decide_eq_true_eq] at hp ⊢; omega
        exact h1.trans (hk.sublist.filter _)
      · exact List.filter_sublist.trans hk.sublist
    · rw [if_neg (by omega)]; exact hk.sublist
  have hpre := List.prefix_of_prefix_length_le (hF k mf) (hF k' mf') hsub.length_le
  have htrim : ∀ (l : List (Str × Int)) (mf vs : Int), (trimTerms l mf vs).1 <+: (if 1 < mf then l.filter (fun p => decide (mf ≤ p.2)) else l) := by
    intro l mf vs
    simp only [trimTerms]
    split <;> split
    · exact List.take_prefix _ _
    · exact List.prefix_rfl
    · exact List.take_prefix _ _
    · exact List.prefix_rfl
  have hfull : ∀ (l : List (Str × Int)) (mf vs : Int), vs ≤ 0 →
      (trimTerms l mf vs).1 = (if 1 < mf then l.filter (fun p => decide (mf ≤ p.2)) else l) := by
    intro l mf vs h
    simp only [trimTerms]
    rw [if_neg (by omega)]
  have htake : ∀ (l : List (Str × Int)) (mf vs : Int), 6 ≤ vs →
      (trimTerms l mf vs).1 = (if 1 < mf then l.filter (fun p => decide (mf ≤ p.2)) else l).take (vs - 6).toNat := by
    intro l mf vs h
    simp only [trimTerms]
    generalize (if 1 < mf then l.filter (fun p => decide (mf ≤ p.2)) else l) = F
    split
    · simp only [sliceBound]
      rw [if_neg (by omega)]
      simp only [List.take_eq_take_iff]
      omega
    · rename_i hn
      rw [List.take_of_length_le (by omega)]
  rcases hs with h | ⟨h6, hle⟩
  · rw [hfull _ mf' vs' h]
    exact (htrim _ _ _).trans hpre
  · rw [htake _ _ _ h6, htake _ _ _ (by omega)]
    obtain ⟨r, hr⟩ := hpre
    rw [← hr]
    generalize (if 1 < mf then (S.take k).filter (fun p => decide (mf ≤ p.2)) else S.take k) = P
    have : P.take (vs - 6).toNat = (P.take (vs' - 6).toNat).take (vs - 6).toNat := by
      rw [List.take_take]
      congr 1
      omega
    rw [this, List.take_append]
    exact (List.take_prefix _ _).trans (List.prefix_append _ _)

/-- C114, words and characters: with a lower `min_freq`, a greater size limit and a higher coverage the types learned before come first, unchanged,
followed by more types; only the frequencies of the reserved types may differ.  Missing: size limits from 1 to 5 (`C114_small_refuted`). -/
theorem C114_vocab_partial {A : Acc} {level : Int} {tf : Dict Str Int} {cov cov' : Option A.F} {lc : Option Int} {mf mf' vs vs' : Int}
    {v v' : List Ty} (hnd : (Dict.keys tf).Nodup) (hm : mf' ≤ mf) (hs : Allows vs vs') (hc : Covers A cov cov')
    (h : getInitVocab A level tf cov lc mf vs = .ok v) (h' : getInitVocab A level tf cov' lc mf' vs' = .ok v') :
    v.drop 6 <+: v'.drop 6 ∧ names v <+: names v' := by
  obtain ⟨k, u, rfl, a1, a2⟩ := getInitVocab_cut hnd h
  obtain ⟨k', u', rfl, b1, b2⟩ := getInitVocab_cut hnd h'
  have hlen : (sortByFreq (popReserved tf)).length = (popReserved tf).length := (sortByFreq_perm _).length_eq
  have hkk : (sortByFreq (popReserved tf)).take k <+: (sortByFreq (popReserved tf)).take k' := by
    rcases hc with rfl | ⟨c, c', rfl, rfl, hcc⟩
    · rw [List.take_of_length_le (i := k') (by rw [hlen]; exact b1 rfl)]
      exact List.take_prefix _ _
    · obtain ⟨a3, a4, a5⟩ := a2 c rfl
      obtain ⟨b3, b4, b5⟩ := b2 c' rfl
      by_cases hle : k ≤ k'
      · have : (sortByFreq (popReserved tf)).take k = ((sortByFreq (popReserved tf)).take k').take k := by
          rw [List.take_take]
          congr 1
          omega
        rw [this]
        exact List.take_prefix _ _
      · by_cases hk' : k' < (popReserved tf).length
        · exfalso
          have h0 : 0 < k' := b3 (by rintro e; rw [e] at hk'; simp at hk')
          have := hcc _ (b5 hk')
          rw [a4 k' h0 (by omega)] at this
          cases this
        · rw [List.take_of_length_le (i := k') (by omega)]
          exact List.take_prefix _ _
  obtain ⟨r, hr⟩ := trimTerms_le (sortByFreq_sorted (popReserved tf)) hkk hm hs
  rw [← hr]
  generalize (trimTerms ((sortByFreq (popReserved tf)).take k) mf vs).1 = P
  rw [List.drop_left' (updateReserved_length _ _ _), List.drop_left' (updateReserved_length _ _ _), names_reserved_append, names_reserved_append]
  constructor
  · rw [List.zipIdx_append, List.map_append]
    exact List.prefix_append _ _
  · rw [List.map_append, ← List.append_assoc]
    exact List.prefix_append _ _

/-- C114 from text, words and characters -/
theorem C114_learned_partial {A : Acc} {k : Kind} (hk : k = .word ∨ k = .char) {data : List Str} {cov cov' : Option A.F} {mf mf' vs vs' : Int}
    {v v' : List Ty} (hm : mf' ≤ mf) (hs : Allows vs vs') (hc : Covers A cov cov') (h : learnRaw A k data vs mf cov = .ok v)
    (h' : learnRaw A k data vs' mf' cov' = .ok v') : v.drop 6 <+: v'.drop 6 ∧ names v <+: names v' := by
  rcases hk with rfl | rfl
  · exact C114_vocab_partial (termFrequencies_nodup .word data) hm hs hc h h'
  · exact C114_vocab_partial (termFrequencies_nodup .char data) hm hs hc h h'

example : Allows 8 9 ∧ Covers accExact (some (1, 2)) (some (3, 4)) ∧
    (outcome (learnRaw accExact .word [lit "a a b b c a b d"] 8 2 (some (1, 2)))).toOption.map (fun v => v.drop 6) = some [(lit "a", 3), (lit "b", 3)] ∧
    (outcome (learnRaw accExact .word [lit "a a b b c a b d"] 9 1 none)).toOption.map (fun v => v.drop 6) =
      some [(lit "a", 3), (lit "b", 3), (lit "c", 1)] := by
  refine ⟨Or.inr (by decide), Or.inr ⟨_, _, rfl, rfl, ?_⟩, by decide +kernel, by decide +kernel⟩
  rintro ⟨a, b⟩ h
  simp only [accExact, decide_eq_true_eq] at h ⊢
  omega

/-- C114 is false for size limits below the number of reserved types: with limit 5 two of three words are kept, with limit 7 only one. -/
theorem C114_small_refuted : ∃ v v', learnRaw accExact .word [lit "c c c a a b"] 5 1 none = .ok v ∧
    learnRaw accExact .word [lit "c c c a a b"] 7 1 none = .ok v' ∧ ¬ names v <+: names v' := by
  refine ⟨_, _, rfl, rfl, fun h => ?_⟩
  exact absurd h.length_le (by decide +kernel)

/-! ## BPE -/

/-- a run with a lower threshold that goes on as long as it can, from a corpus without blocks repeated three times, begins with every other run -/
theorem Spec.Run.extends {minEv minEv' level : Int} {C C1 : Corpus} {v v1 : List Ty} {k1 : Nat} (hm : minEv' ≤ minEv) (h : Run minEv level C v k1 C1 v1) :
    ∀ {k2 n : Nat} {C2 : Corpus} {v2 : List Ty}, Run minEv' level C v k2 C2 v2 → (∀ s ∈ C, s.1 ≠ [] ∧ 0 < s.2) →
      (∀ s ∈ C, ∀ c ∈ s.1, c < v.length) → CubeFree C → k1 ≤ n → (k2 = n ∨ Stuck minEv' C2) → v1 <+: v2 := by
  induction h with
  | refl C v =>
    intro k2 n C2 v2 h2 _ _ _ _ _
    obtain ⟨new, e, _⟩ := h2.shape
    exact ⟨new, e.symm⟩
  | @step C Cm C' v v' k p ta tb hb hm1 ha hb2 hmer hr ih =>
    intro k2 n C2 v2 h2 hs hc hf hk1 st2
    cases h2 with
    | refl =>
      rcases st2 with st2 | st2
      · omega
      · exact (st2.not_step hb (by omega)).elim
    | @step _ Cm2 _ _ _ k2 p2 ta2 tb2 hbb hmm haa hbb2 hmer2 hr2 =>
      have := hb.unique hbb
      subst this
      rw [ha] at haa
      rw [hb2] at hbb2
      cases haa
      cases hbb2
      have := hmer.unique_apart (hf.apart p) hc hmer2
      subst this
      obtain ⟨w1, w2⟩ := hmer.wf hs hc
      exact ih hr2 (n := n - 1) w1 (by simpa using w2) (hmer.cubeFree hc hf) (by omega) (st2.imp (fun h => by omega) id)

/-- C114, merging: with more rounds and a lower threshold the table learned before is the beginning of the table learned now, whatever the order of the
sets in the two runs, if no sequence contains a block three times in a row.  Missing: other sequences (`C114_bpe_refuted`). -/
theorem C114_codes_partial {ord ord' : Nat → List Nat → List Nat} (hord : ∀ i l, (ord i l).Perm l) (hord' : ∀ i l, (ord' i l).Perm l)
    {minEv minEv' level : Int} {n n' : Nat} {seqs : Corpus} {vocab v v' : List Ty} (hs : ∀ s ∈ seqs, s.1 ≠ [] ∧ 0 < s.2) (hidx : Indexed vocab)
    (hnames : (names vocab).Nodup) (hcodes : ∀ s ∈ seqs, ∀ c ∈ s.1, c < vocab.length) (hcube : CubeFree seqs) (hn : n ≤ n') (hm : minEv' ≤ minEv)
    (h : learnCodes ord seqs vocab n minEv level = .ok v) (h' : learnCodes ord' seqs vocab n' minEv' level = .ok v') : v <+: v' := by
  obtain ⟨k, C1, h1, h2, _⟩ := C20_merges hord hs hidx hnames hcodes h
  obtain ⟨k', C2, g1, g2, g3⟩ := C20_merges hord' hs hidx hnames hcodes h'
  exact h2.extends hm g2 hs hcodes hcube (n := n') (by omega) (g3.imp id Or.inl)

/-- C114 from text, BPE: with a greater size and a lower threshold the table learned before is the beginning of the table learned now, if no word, ended by
U+2581, contains a block three times in a row.  Missing: other words (`C114_bpe_refuted`); for coverage limits, which replace different characters by
the same unknown symbol, see `C114_coverage_partial`. -/
theorem C114_bpe_partial {ord ord' : Nat → List Nat → List Nat} (hord : ∀ i l, (ord i l).Perm l) (hord' : ∀ i l, (ord' i l).Perm l)
    {A : Acc} {data : List Str} {toks : List (List Str)} (ht : List.Forall₂ Tokens data toks)
    (hfree : ∀ w ∈ toks.flatten, ∀ b : Str, b ≠ [] → ¬ (b ++ b ++ b) <:+: w ++ [0x2581]) {vs vs' mf mf' minEv minEv' : Int}
    (hs : effSize vs minEv ≤ effSize vs' minEv') (hm : minEv' ≤ minEv) {v v' : List Ty} (h : bpeLearn ord A data vs mf none minEv = .ok v)
    (h' : bpeLearn ord' A data vs' mf' none minEv' = .ok v') : v <+: v' := by
  have hv : ∀ c, (none : Option A.F) = some c → A.valid c = true := by simp
  obtain ⟨t1, t2, t3⟩ := termFrequencies_word data
  obtain ⟨cf, v0, C, c1, c2, c3, c4, c5, c6, c0, c7⟩ := bpeLearnTf_every t1 t2 t3 (lc := (termFrequencies .word data).2) hv
  have hcube : CubeFree C := by
    refine codedWord_cubeFree c4 (chars_kept t2 c1 c2 c3 c0) ?_
    rintro ⟨n, f⟩ hp
    have := ((C15_counts (k := .word) data toks ht (Or.inl rfl) n f).1 hp).1
    simp only [if_true] at this
    exact hfree n (by simpa [List.mem_flatMap, List.mem_flatten] using this)
  simp only [bpeLearn] at h h'
  rw [c7] at h h'
  split at h
  · split at h'
    · exact C114_codes_partial hord hord' c5 c3.indexed c3.distinct c6 hcube (by omega) hm h h'
    · cases h'
  · cases h

example : (outcome (bpeLearn ordId accExact [lit "abab cab abab", lit "abab cab"] 10 1 none 2)).toOption.map (fun v => v.drop 9) =
      some [(lit "ab", 8)] ∧
    (outcome (bpeLearn ordRev accExact [lit "abab cab abab", lit "abab cab"] 12 1 none 1)).toOption.map (fun v => v.drop 9) =
      some [(lit "ab", 8), (lit "ab▁", 5), (lit "abab▁", 3)] := by decide +kernel

/-- C114 is false for BPE in general: from "aaab" two merges give "aa" and "ab" in one order of the sets, and three merges give "aa", "aaa" and "aaab" in
another. -/
theorem C114_bpe_refuted : ∃ v v', bpeLearn ordId accExact [lit "aaab"] 10 1 none 1 = .ok v ∧ bpeLearn ordRev accExact [lit "aaab"] 11 1 none 1 = .ok v' ∧
    ¬ names v <+: names v' := by
  refine ⟨_, _, rfl, rfl, ?_⟩
  decide +kernel

/-! ### the same order of sets, any sequences -/

theorem learnStep_true {ord : List Nat → List Nat} {minEv minEv' level : Int} (hm : minEv' ≤ minEv) {S S' : LState}
    (h : learnStep ord minEv level S = .ok (S', true)) : learnStep ord minEv' level S = .ok (S', true) := by
  unfold learnStep at h ⊢
  split at h
  · cases h
  · rename_i a b f heap1 dirty1 hp
    dsimp only at h ⊢
    split at h
    · cases h
    · rw [if_neg (by omega)]
      exact h

theorem learnStep_false {ord : List Nat → List Nat} {minEv level : Int} {S S' : LState}
    (h : learnStep ord minEv level S = .ok (S', false)) : S'.vocab = S.vocab := by
  unfold learnStep at h
  split at h
  · cases h
  · dsimp only at h
    split at h
    · cases h; rfl
    · split at h
      · split at h
        · cases h
        · split at h
          · cases h
          · split at h
            · cases h
            · split at h
              · cases h
              · split at h <;> cases h
      · cases h

theorem learnStep_grows {ord : List Nat → List Nat} {minEv level : Int} {S S' : LState}
    (h : learnStep ord minEv level S = .ok (S', true)) : S.vocab <+: S'.vocab := by
  unfold learnStep at h
  split at h
  · cases h
  · dsimp only at h
    split at h
    · cases h
    · split at h
      · split at h
        · cases h
        · split at h
          · cases h
          · split at h
            · cases h
            · split at h
              · cases h
              · split at h
                · cases h
                · cases h
                  exact List.prefix_append _ _
      · cases h

theorem learnLoop_grows {ord : Nat → List Nat → List Nat} {minEv level : Int} (n : Nat) :
    ∀ {S S' : LState}, learnLoop ord minEv level n S = .ok S' → S.vocab <+: S'.vocab := by
  induction n with
  | zero => intro S S' h; cases h; exact List.prefix_rfl
  | succ n ih =>
    intro S S' h
    rw [learnLoop] at h
    split at h
    · cases h
    · rename_i e
      exact (learnStep_grows e).trans (ih h)
    · rename_i e
      cases h
      rw [learnStep_false e]

theorem learnLoop_extends {ord ord' : Nat → List Nat → List Nat} {minEv minEv' level : Int} (hm : minEv' ≤ minEv) {d : Nat} (n : Nat)
    (hord : ∀ i, i < n → ord i = ord' (i + d)) :
    ∀ {S S1 S2 : LState}, learnLoop ord minEv level n S = .ok S1 → learnLoop ord' minEv' level (n + d) S = .ok S2 → S1.vocab <+: S2.vocab := by
  induction n with
  | zero => intro S S1 S2 h h2; cases h; exact learnLoop_grows _ h2
  | succ n ih =>
    intro S S1 S2 h h2
    rw [learnLoop] at h
    split at h
    · cases h
    · rename_i e
      have e' := learnStep_true hm e
      rw [hord n (by omega)] at e'
      rw [show n + 1 + d = (n + d) + 1 by omega, learnLoop, e'] at h2
      exact ih (fun i hi => hord i (by omega)) h h2
    · rename_i e
      cases h
      rw [learnStep_false e]
      exact learnLoop_grows _ h2

/-- C114, merging, for all sequences: if the rounds that both runs have visit the nodes in the same order (the functions `ord` are given the number of
rounds left), then with more rounds and a lower threshold the table learned before is the beginning of the table learned now. -/
theorem C114_same_order {ord ord' : Nat → List Nat → List Nat} {minEv minEv' level : Int} {n n' : Nat} {seqs : Corpus} {vocab v v' : List Ty}
    (hn : n ≤ n') (hm : minEv' ≤ minEv) (hord : ∀ i, i < n → ord i = ord' (i + (n' - n)))
    (h : learnCodes ord seqs vocab n minEv level = .ok v) (h' : learnCodes ord' seqs vocab n' minEv' level = .ok v') : v <+: v' := by
  unfold learnCodes at h h'
  cases hI : bpeInit seqs vocab with
  | error e => rw [hI] at h; cases h
  | ok I =>
    rw [hI] at h h'
    dsimp only at h h'
    split at h
    · cases h
    · rename_i S1 e1
      split at h'
      · cases h'
      · rename_i S2 e2
        cases h
        cases h'
        rw [show n' = n + (n' - n) by omega] at e2
        exact learnLoop_extends hm n hord e1 e2

/-- "aaab" with two and with three merges, sets in the order of insertion: three merges add one type -/
example : outcome (learnCodes ordId [([0, 0, 0, 1], 1)] (exChars ["a", "b"]) 1 1 1) = .ok [(lit "a", 0), (lit "b", 0), (lit "aa", 2)] ∧
    outcome (learnCodes ordId [([0, 0, 0, 1], 1)] (exChars ["a", "b"]) 2 1 1) = .ok [(lit "a", 0), (lit "b", 0), (lit "aa", 2), (lit "ab", 1)] := by
  decide +kernel

end Verif
