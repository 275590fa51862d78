import Verif.Lemmas.BpeppText
import Verif.Props.BpeLearn
/-!
# Properties C82-C84: the two-level learner `experimental/bpepp.py`

`ord` is the iteration order of the internal hash sets, as in `Verif/Props/BpeLearn.lean`.
-/

namespace Verif
open Spec

/-! ## C82 -/

/-- C82: `_replace_trouble` cuts every maximal run of equal symbols to at most two and changes nothing else. -/
theorem C82_runs {rs : List (Nat × Nat)} {s : List Nat} (h : Runs rs s) :
    Runs (rs.map fun r => (r.1, min r.2 2)) (ppReplaceTrouble s) := by
  have := squeezed_spec [(s, 0)]
  cases this with
  | cons h1 _ =>
    obtain ⟨_, rs', r1, r2⟩ := h1
    rw [h.unique r1]; exact r2

/-- C82: every sequence has exactly one decomposition in maximal runs, so `C82_runs` determines the result. -/
theorem C82_runs_unique (s : List Nat) : ∃ rs, Runs rs s ∧ ∀ rs', Runs rs' s → rs' = rs := by
  obtain ⟨rs, h⟩ := runs_exist s
  exact ⟨rs, h, fun rs' h' => h'.unique h⟩

/-- C82: `_is_troublesome_seq` finds the sequences that contain a symbol three times in a row; the result never does, and a
sequence without such a run is returned unchanged. -/
theorem C82_trouble (s : List Nat) : (ppTroublesome s = true ↔ ∃ x, [x, x, x] <:+: s) ∧
    (∀ x, ¬ [x, x, x] <:+: ppReplaceTrouble s) ∧ ((∀ x, ¬ [x, x, x] <:+: s) → ppReplaceTrouble s = s) := by
  refine ⟨ppTroublesome_iff s, fun x hx => ?_, fun h => ppReplaceTrouble_id ?_⟩
  · have := (ppTroublesome_iff _).2 ⟨x, hx⟩
    rw [not_troublesome_replace] at this
    cases this
  · rw [Bool.eq_false_iff]
    intro ht
    obtain ⟨x, hx⟩ := (ppTroublesome_iff s).1 ht
    exact h x hx

/-- C82: the index is that of the sequences with the runs cut (`'replace'`) ... -/
theorem C82_index_replace {seqs D : Corpus} (hD : Squeezed seqs D) (vocab : List Ty) : ppInit .replace seqs none vocab = bpeInit D vocab := by
  rw [hD.eq]; exact ppInit_replace seqs vocab

theorem createIndex_first {seqs : List (List Nat × Int)} (h : ∀ s ∈ seqs, s.1 ≠ []) (b : Bool) (I : Index) :
    createIndex b seqs I = createIndex false seqs I := by
  cases seqs with
  | nil => cases b <;> rfl
  | cons s seqs => simp only [createIndex, h s (by simp), if_false]

/-- C82: ... or that of the sequences without such runs (`'ignore'`). -/
theorem C82_index_ignore {seqs : Corpus} (h : ∀ s ∈ seqs, s.1 ≠ []) (D : Corpus) (hD : D.Sublist seqs)
    (hmem : ∀ s, s ∈ D ↔ s ∈ seqs ∧ ∀ x, ¬ [x, x, x] <:+: s.1) (hcount : ∀ s ∈ D, D.count s = seqs.count s) (vocab : List Ty) :
    ppInit .ignore seqs none vocab = bpeInit D vocab := by
  have hf : D = seqs.filter fun s => !ppTroublesome s.1 := by
    have hno : ∀ s : List Nat × Int, (!ppTroublesome s.1) = true ↔ ∀ x, ¬ [x, x, x] <:+: s.1 := by
      intro s
      rw [Bool.not_eq_true', Bool.eq_false_iff, ne_eq, ppTroublesome_iff, not_exists]
    have hsub : D.Sublist (seqs.filter fun s => !ppTroublesome s.1) := by
      have := hD.filter fun s => !ppTroublesome s.1
      rwa [List.filter_eq_self.2 (fun s hs => (hno s).2 ((hmem s).1 hs).2)] at this
    refine hsub.eq_of_length_le ?_
    have : (seqs.filter fun s => !ppTroublesome s.1).Subperm D := by
      rw [List.subperm_ext_iff]
      intro s hs
      have hs' := List.mem_filter.1 hs
      have hd : s ∈ D := (hmem s).2 ⟨hs'.1, (hno s).1 hs'.2⟩
      rw [hcount s hd]
      exact List.filter_sublist.count_le s
    exact this.length_le
  subst hf
  have gen : ∀ (seqs : List (List Nat × Int)) (b : Bool) (I : Index), (∀ s ∈ seqs, s.1 ≠ []) →
      ppCreateIndex .ignore b seqs I = createIndex b (seqs.filter fun s => !ppTroublesome s.1) I := by
    intro seqs
    induction seqs with
    | nil => intro b I _; rfl
    | cons s seqs ih =>
      intro b I hs
      obtain ⟨seq, f⟩ := s
      have h0 : seq ≠ [] := hs (seq, f) (by simp)
      have hs' : ∀ s ∈ seqs, s.1 ≠ [] := fun s h => hs s (by simp [h])
      rw [List.filter_cons]
      by_cases ht : ppTroublesome seq = true
      · simp only [ppCreateIndex, h0, if_false, ht, if_true, Bool.not_true, Bool.false_eq_true]
        rw [ih false I hs', createIndex_first (fun s h => hs' s (List.mem_filter.1 h).1) b]
      · have ht' : ppTroublesome seq = false := by simpa using ht
        simp only [ppCreateIndex, h0, if_false, ht', Bool.false_eq_true, Bool.not_false, if_true, createIndex]
        split
        · rename_i he; rw [he]
        · rename_i he; rw [he]; exact ih _ _ hs'
  simp only [ppInit, bpeInit, gen seqs true _ h]
  rfl

/-- "heeeello": the run of four is cut to two -/
example : ppReplaceTrouble [7, 4, 4, 4, 4, 11, 11, 14] = [7, 4, 4, 11, 11, 14] := by decide
example : Runs [(7, 1), (4, 4), (11, 2), (14, 1)] [7, 4, 4, 4, 4, 11, 11, 14] := by
  refine ⟨by decide, by decide, by decide⟩

/-! ## C83 -/

/-- C83: `BPELearn.learn_codes` makes `k` rounds on the sequences with their runs cut, each of which replaces every occurrence
of some most frequent pair, of frequency at least the threshold, and records its exact frequency.  Then it
* returns after `n` rounds or because every pair is rarer than the threshold, or
* raises ValueError because there is no pair left, or
* meets a most frequent pair `x x` while some sequence contains `x x x`.

Missing: what happens from then on in the third case, where the index goes wrong (see the refutations below); it is excluded by
`C83_cube_free_partial`.  For thresholds below 1 see `C83_low_partial` and `C83_zero_refuted`. -/
theorem C83_rounds_partial {ord : Nat → List Nat → List Nat} (hord : ∀ i l, (ord i l).Perm l) {minEv : Int} (hmin : 1 ≤ minEv) (level n : Int)
    {seqs D : Corpus} {vocab : List Ty} (hne : seqs ≠ []) (hs : ∀ s ∈ seqs, s.1 ≠ [] ∧ 0 < s.2) (hidx : Indexed vocab)
    (hnames : (names vocab).Nodup) (hcodes : ∀ s ∈ seqs, ∀ c ∈ s.1, c < vocab.length) (hD : Squeezed seqs D) :
    ∃ k C' v', k ≤ n.toNat ∧ RunMax minEv level D vocab k C' v' ∧
      ((ppLearn ord .replace seqs none vocab n minEv level = .ok v' ∧ (k = n.toNat ∨ ∀ q, pairCount C' q < minEv)) ∨
       (ppLearn ord .replace seqs none vocab n minEv level = .error .value ∧ k < n.toNat ∧ ∀ q, pairCount C' q = 0) ∨
       (k < n.toNat ∧ ∃ p, IsMax C' p ∧ minEv ≤ pairCount C' p ∧ ¬ Apart C' p)) := by
  rw [hD.eq]
  exact ppLearn_spec hord hmin level n hne hs (fun i t ht => hidx i t ht) hnames hcodes

theorem squeezed_id {seqs : Corpus} (h : ∀ s ∈ seqs, ∀ x, ¬ [x, x, x] <:+: s.1) : squeezed seqs = seqs := by
  conv_rhs => rw [← List.map_id seqs]
  apply List.map_congr_left
  intro s hs
  have := (C82_trouble s.1).2.2 (h s hs)
  rw [this]; rfl

/-- C83: on sequences in which no block of symbols is repeated three times in a row, `learn_codes` is BPE with some rule for
ties: it returns after `n` rounds or when every pair is rarer than the threshold; if no pair is left before that it raises
ValueError.  Missing: sequences that contain such a block, where this is false. -/
theorem C83_cube_free_partial {ord : Nat → List Nat → List Nat} (hord : ∀ i l, (ord i l).Perm l) {minEv : Int} (hmin : 1 ≤ minEv) (level n : Int)
    {seqs : Corpus} {vocab : List Ty} (hne : seqs ≠ []) (hs : ∀ s ∈ seqs, s.1 ≠ [] ∧ 0 < s.2) (hidx : Indexed vocab)
    (hnames : (names vocab).Nodup) (hcodes : ∀ s ∈ seqs, ∀ c ∈ s.1, c < vocab.length) (hcube : CubeFree seqs) :
    ∃ k C' v', k ≤ n.toNat ∧ RunMax minEv level seqs vocab k C' v' ∧
      ((ppLearn ord .replace seqs none vocab n minEv level = .ok v' ∧ (k = n.toNat ∨ ∀ q, pairCount C' q < minEv)) ∨
       (ppLearn ord .replace seqs none vocab n minEv level = .error .value ∧ k < n.toNat ∧ ∀ s ∈ C', ∃ c, s.1 = [c])) := by
  have hid : squeezed seqs = seqs := squeezed_id (fun s hs' x => hcube s hs' [x] (by simp))
  obtain ⟨k, C', v', hk, hrun, hres⟩ := C83_rounds_partial hord hmin level n hne hs hidx hnames hcodes (squeezed_spec seqs)
  rw [hid] at hrun
  refine ⟨k, C', v', hk, hrun, ?_⟩
  rcases hres with h | ⟨h1, h2, h3⟩ | ⟨_, p, _, _, hna⟩
  · exact Or.inl h
  · exact Or.inr ⟨h1, h2, single_of_no_pairs (hrun.wf hs hcodes).1 h3⟩
  · exact absurd (RunMax_apart hrun hcodes hcube p) hna

/-- "abab" and "cab" are cube-free; two rounds as in nlcodec -/
example : outcome (ppLearn ordRev .replace [([0, 1, 0, 1], 3), ([2, 0, 1], 2)] none (exChars ["a", "b", "c"]) 2 2 1) =
    .ok [(lit "a", 0), (lit "b", 0), (lit "c", 0), (lit "ab", 8), (lit "abab", 3)] := by decide +kernel
/-- "aab▁" and "ab▁": the run of two is kept -/
example : outcome (ppLearn ordId .replace [([0, 0, 1], 3), ([0, 1], 2)] none (exChars ["a", "b"]) 5 3 1) =
    .ok [(lit "a", 0), (lit "b", 0), (lit "ab", 5), (lit "aab", 3)] := by decide +kernel
/-- "aaab" is cut to "aab" -/
example : outcome (ppLearn ordId .replace [([0, 0, 0, 1], 3), ([0, 1], 2)] none (exChars ["a", "b"]) 5 3 1) =
    .ok [(lit "a", 0), (lit "b", 0), (lit "ab", 5), (lit "aab", 3)] := by decide +kernel

theorem cubeFree_of_short {seqs : Corpus} (h : ∀ s ∈ seqs, ∀ k, 1 ≤ k → 3 * k ≤ s.1.length → ∀ i, i + 3 * k ≤ s.1.length →
    ¬ ((s.1.drop i).take k = ((s.1.drop (i + k)).take k) ∧ (s.1.drop i).take k = ((s.1.drop (i + 2 * k)).take k))) : CubeFree seqs := by
  intro s hs w hw hi
  obtain ⟨A, B, hAB⟩ := hi
  have hlen := congrArg List.length hAB
  simp only [List.length_append] at hlen
  have hw' := List.length_pos_of_ne_nil hw
  refine h s hs w.length hw' (by omega) A.length (by omega) ?_
  have e0 : s.1 = A ++ (w ++ (w ++ (w ++ B))) := by rw [← hAB]; simp
  have e1 : s.1 = (A ++ w) ++ (w ++ (w ++ B)) := by rw [← hAB]; simp
  have e2 : s.1 = (A ++ w ++ w) ++ (w ++ B) := by rw [← hAB]; simp
  have d0 : (s.1.drop A.length).take w.length = w := by rw [e0, List.drop_left, List.take_left]
  have d1 : (s.1.drop (A.length + w.length)).take w.length = w := by
    rw [e1, List.drop_left' (by simp), List.take_left]
  have d2 : (s.1.drop (A.length + 2 * w.length)).take w.length = w := by
    rw [e2, List.drop_left' (by simp; omega), List.take_left]
  rw [d0, d1, d2]
  exact ⟨rfl, rfl⟩

/-- the hypotheses of `C83_cube_free_partial` are met by "abab" and "cab" -/
example : CubeFree [([0, 1, 0, 1], 3), ([2, 0, 1], 2)] := by
  apply cubeFree_of_short
  intro s hs k hk h3
  have hk1 : k = 1 := by
    simp only [List.mem_cons, List.not_mem_nil, or_false] at hs
    rcases hs with rfl | rfl <;> simp at h3 <;> omega
  subst hk1
  intro i hi
  have hi' : i ≤ 1 := by
    simp only [List.mem_cons, List.not_mem_nil, or_false] at hs
    rcases hs with rfl | rfl <;> simp at hi <;> omega
  simp only [List.mem_cons, List.not_mem_nil, or_false] at hs
  rcases hs with rfl | rfl
  · match i, hi' with
    | 0, _ => decide
    | 1, _ => decide
  · match i, hi' with
    | 0, _ => decide
    | 1, _ => simp at hi

/-- the appended types of one round -/
theorem ppStep_vocab {ord : List Nat → List Nat} {minEv level : Int} {S S' : PpState} {b : Bool} (h : ppStep ord minEv level S = .ok (S', b)) :
    S'.vocab = S.vocab ∨ ∃ (p : Nat × Nat) (ta tb : Ty) (f : Int), S.vocab[p.1]? = some ta ∧ S.vocab[p.2]? = some tb ∧ minEv ≤ f ∧
      S'.vocab = S.vocab ++ [mergedType S.vocab ta tb level f] := by
  unfold ppStep at h
  split at h
  · cases h
  · rename_i a b' f hmax
    split at h
    · cases h; exact Or.inl rfl
    · rename_i hlt
      simp only at h
      split at h
      · rename_i ta tb ha hb
        split at h
        · cases h
        · split at h
          · cases h
          · split at h
            · cases h
            · split at h
              · cases h
              · cases h
                exact Or.inr ⟨(a, b'), ta, tb, f, ha, hb, by omega, rfl⟩
      · cases h

theorem ppLoop_vocab {ord : Nat → List Nat → List Nat} {minEv level : Int} : ∀ (n : Nat) {S S' : PpState},
    ppLoop ord minEv level n S = .ok S' →
    ∃ new, S'.vocab = S.vocab ++ new ∧ new.length ≤ n ∧ ∀ i t, new[i]? = some t → t.idx = S.vocab.length + i ∧ t.level = level ∧
      minEv ≤ t.freq ∧ ∃ ja jb ta tb, ja < S.vocab.length + i ∧ jb < S.vocab.length + i ∧ S'.vocab[ja]? = some ta ∧
        S'.vocab[jb]? = some tb ∧ t.kids = [ta, tb] ∧ t.name = ta.name ++ tb.name := by
  intro n
  induction n with
  | zero => intro S S' h; cases h; exact ⟨[], by simp, by simp, by simp⟩
  | succ n ih =>
    intro S S' h
    rw [ppLoop] at h
    cases hs : ppStep (ord n) minEv level S with
    | error e => rw [hs] at h; cases h
    | ok r =>
      obtain ⟨S1, b⟩ := r
      rw [hs] at h
      have hv := ppStep_vocab hs
      cases b with
      | false =>
        simp only [Except.ok.injEq] at h
        subst h
        unfold ppStep at hs
        have : S1.vocab = S.vocab := by
          split at hs
          · cases hs
          · split at hs
            · cases hs; rfl
            · simp only at hs
              repeat' split at hs
              all_goals cases hs
        exact ⟨[], by simp [this], by simp, by simp⟩
      | true =>
        obtain ⟨new, e, hl, hn⟩ := ih h
        rcases hv with hv | ⟨p, ta, tb, f, ha, hb, hf, hv⟩
        · rw [hv] at e hn
          exact ⟨new, e, by omega, hn⟩
        · refine ⟨mergedType S.vocab ta tb level f :: new, by rw [e, hv]; simp, by simp; omega, ?_⟩
          have hla := (List.getElem?_eq_some_iff.1 ha).1
          have hlb := (List.getElem?_eq_some_iff.1 hb).1
          intro i t ht
          cases i with
          | zero =>
            simp only [List.getElem?_cons_zero, Option.some.injEq] at ht
            subst ht
            refine ⟨rfl, rfl, hf, p.1, p.2, ta, tb, hla, hlb, ?_, ?_, rfl, rfl⟩
            · rw [e, hv, List.append_assoc, List.getElem?_append_left hla]; exact ha
            · rw [e, hv, List.append_assoc, List.getElem?_append_left hlb]; exact hb
          | succ i =>
            simp only [List.getElem?_cons_succ] at ht
            obtain ⟨h1, h2, h3, ja, jb, ta', tb', g1, g2, g3, g4, g5, g6⟩ := hn i t ht
            rw [hv] at h1 g1 g2
            simp only [List.length_append, List.length_singleton] at h1 g1 g2
            exact ⟨by omega, h2, h3, ja, jb, ta', tb', by omega, by omega, g3, g4, g5, g6⟩

/-- C83: whatever the sequences, a table that is returned extends the initial one by at most `n` types; each of these is at its
own index, has the level asked for and a frequency not below the threshold, and is named by the concatenation of its two kids,
which are earlier entries. -/
theorem C83_table {ord : Nat → List Nat → List Nat} {tr : Troubles} {seqs : Corpus} {exc : Option Exc} {vocab v' : List Ty} {n minEv level : Int}
    (h : ppLearn ord tr seqs exc vocab n minEv level = .ok v') :
    Indexed v' ∧ v'.take vocab.length = vocab ∧ v'.length ≤ vocab.length + n.toNat ∧
    ∀ (i : Nat) (t : Ty), vocab.length ≤ i → v'[i]? = some t → t.level = level ∧ minEv ≤ t.freq ∧
      ∃ ja jb ta tb, ja < i ∧ jb < i ∧ v'[ja]? = some ta ∧ v'[jb]? = some tb ∧ t.kids = [ta, tb] ∧ t.name = ta.name ++ tb.name := by
  unfold ppLearn at h
  cases hI : ppInit tr seqs exc vocab with
  | error e => rw [hI] at h; cases h
  | ok I =>
    rw [hI] at h
    simp only at h
    have hidx : Indexed vocab := by
      unfold ppInit at hI
      split at hI
      · cases hI
      · cases hc : checkIdx 0 vocab with
        | error e => rw [hc] at hI; cases hI
        | ok u =>
          have gen : ∀ (l : List Ty) (k : Nat), checkIdx k l = .ok () → ∀ i t, l[i]? = some t → t.idx = k + i := by
            intro l
            induction l with
            | nil => intro k _ i t h; simp at h
            | cons x l ih =>
              intro k hk i t ht
              simp only [checkIdx] at hk
              split at hk
              · rename_i hx
                cases i with
                | zero => simp at ht; subst ht; exact hx.symm
                | succ i =>
                  have := ih (k + 1) hk i t (by simpa using ht)
                  omega
              · cases hk
          intro i t ht
          have := gen vocab 0 hc i t ht
          omega
    cases hl : ppLoop ord minEv level n.toNat { mem := I.mem, bi := I.bi, ix := I.ix, uni := I.uni, vocab := vocab } with
    | error e => rw [hl] at h; cases h
    | ok S =>
      rw [hl] at h
      cases h
      obtain ⟨new, e, hlen, hn⟩ := ppLoop_vocab _ hl
      simp only at e hn
      refine ⟨?_, by rw [e, List.take_left' rfl], by rw [e, List.length_append]; omega, ?_⟩
      · intro i t ht
        rw [e] at ht
        by_cases hlt : i < vocab.length
        · rw [List.getElem?_append_left hlt] at ht; exact hidx i t ht
        · rw [List.getElem?_append_right (by omega)] at ht
          have := (hn _ t ht).1
          omega
      · intro i t hi ht
        rw [e, List.getElem?_append_right hi] at ht
        obtain ⟨h1, h2, h3, ja, jb, ta, tb, g1, g2, g⟩ := hn _ t ht
        exact ⟨h2, h3, ja, jb, ta, tb, by omega, by omega, g⟩

/-- C83: in the cube-free case the frequencies of the new types are non-increasing. -/
theorem C83_sorted_partial {ord : Nat → List Nat → List Nat} (hord : ∀ i l, (ord i l).Perm l) {minEv : Int} (hmin : 1 ≤ minEv) {level n : Int}
    {seqs : Corpus} {vocab v' : List Ty} (hne : seqs ≠ []) (hs : ∀ s ∈ seqs, s.1 ≠ [] ∧ 0 < s.2) (hidx : Indexed vocab)
    (hnames : (names vocab).Nodup) (hcodes : ∀ s ∈ seqs, ∀ c ∈ s.1, c < vocab.length) (hcube : CubeFree seqs)
    (h : ppLearn ord .replace seqs none vocab n minEv level = .ok v') :
    (v'.drop vocab.length).Pairwise (fun a b => b.freq ≤ a.freq) := by
  obtain ⟨k, C', v2, hk, hrun, hres⟩ := C83_cube_free_partial hord hmin level n hne hs hidx hnames hcodes hcube
  rcases hres with ⟨h1, _⟩ | ⟨h1, _⟩
  · rw [h1] at h; cases h
    exact (hrun.sorted hs hcodes).1
  · rw [h1] at h; cases h

/-- C83 refuted: learning does not always go through.  On the word "ababab" the second round meets the pair (ab, ab) twice in
"ab ab ab"; twice the count of the pair is subtracted from the count of ab, which is 3, and the assertion that it stays non-negative
fails.  nlcodec's learner handles this. -/
theorem C83_overlap_crash_refuted : ∀ ord ∈ [ordId, ordRev],
    outcome (ppLearn ord .replace [([0, 1, 0, 1, 0, 1], 1)] none (exChars ["a", "b"]) 2 1 1) = .error .assertion ∧
    outcome (learnCodes ord [([0, 1, 0, 1, 0, 1], 1)] (exChars ["a", "b"]) 2 1 1) =
      .ok [(lit "a", 0), (lit "b", 0), (lit "ab", 3), (lit "abab", 2)] := by
  intro ord h
  simp only [List.mem_cons, List.not_mem_nil, or_false] at h
  rcases h with rfl | rfl <;> decide +kernel

/-- C83 refuted: whether learning goes through may depend on the iteration order of a set.  After "aa" and "aab" the words "aab" and
"aabaabaab" are "aab" and "aab aab aab", with enough occurrences of aab for the counts.  Visiting the two overlapping occurrences of
(aab, aab) from the left, the second one is merged too, in the remains of the first, and learning goes on; from the right, the first one
is found destroyed and the validation of the index raises ValueError.  nlcodec's learner gives the same table in both cases. -/
theorem C83_order_refuted :
    outcome (ppLearn ordId .replace [([0, 0, 1], 1), ([0, 0, 1, 0, 0, 1, 0, 0, 1], 1)] none (exChars ["a", "b"]) 3 1 1) =
      .ok [(lit "a", 0), (lit "b", 0), (lit "aa", 4), (lit "aab", 4), (lit "aabaab", 2)] ∧
    outcome (ppLearn ordRev .replace [([0, 0, 1], 1), ([0, 0, 1, 0, 0, 1, 0, 0, 1], 1)] none (exChars ["a", "b"]) 3 1 1) = .error .value ∧
    ∀ ord ∈ [ordId, ordRev], outcome (learnCodes ord [([0, 0, 1], 1), ([0, 0, 1, 0, 0, 1, 0, 0, 1], 1)] (exChars ["a", "b"]) 3 1 1) =
      .ok [(lit "a", 0), (lit "b", 0), (lit "aa", 4), (lit "aab", 4), (lit "aabaab", 2)] := by
  refine ⟨by decide +kernel, by decide +kernel, ?_⟩
  intro ord h
  simp only [List.mem_cons, List.not_mem_nil, or_false] at h
  rcases h with rfl | rfl <;> decide +kernel

/-- C83 refuted: learning may stop although a pair reaches the threshold.  After "ab", "abab", "cabab" the word "cababab" is the
pair (cabab, ab) with frequency 2, but its count was lost in the second round; nlcodec's learner goes on. -/
theorem C83_stops_early_refuted : ∀ ord ∈ [ordId, ordRev],
    outcome (ppLearn ord .replace [([2, 0, 1, 0, 1, 0, 1], 2), ([0, 1], 10)] none (exChars ["a", "b", "c"]) 4 2 1) =
      .ok [(lit "a", 0), (lit "b", 0), (lit "c", 0), (lit "ab", 16), (lit "abab", 4), (lit "cabab", 2)] ∧
    outcome (learnCodes ord [([2, 0, 1, 0, 1, 0, 1], 2), ([0, 1], 10)] (exChars ["a", "b", "c"]) 4 2 1) =
      .ok [(lit "a", 0), (lit "b", 0), (lit "c", 0), (lit "ab", 16), (lit "abab", 4), (lit "cabab", 2), (lit "cababab", 2)] := by
  intro ord h
  simp only [List.mem_cons, List.not_mem_nil, or_false] at h
  rcases h with rfl | rfl <;> decide +kernel

/-- C83 refuted: asking for more merges than there are pairs is an error (ValueError of `max` on the empty dict). -/
theorem C83_exhausted_refuted :
    outcome (ppLearn ordId .replace [([0, 1], 1)] none (exChars ["a", "b"]) 2 1 1) = .error .value := by decide +kernel

/-- C83 refuted for the threshold 0: counts of pairs that have disappeared stay in the dictionary with the value 0, so after "ab" and "abc" the type
"bc" is added with frequency 0, although no sequence contains it. -/
theorem C83_zero_refuted : ∀ ord ∈ [ordId, ordRev],
    outcome (ppLearn ord .replace [([0, 1, 2], 1)] none (exChars ["a", "b", "c"]) 3 0 1) =
      .ok [(lit "a", 0), (lit "b", 0), (lit "c", 0), (lit "ab", 1), (lit "abc", 1), (lit "bc", 0)] := by
  intro ord h
  simp only [List.mem_cons, List.not_mem_nil, or_false] at h
  rcases h with rfl | rfl <;> decide +kernel

theorem ppStep_low {ord : List Nat → List Nat} {minEv minEv' level : Int} (hm : minEv' ≤ minEv) {S S' : PpState}
    (h : ppStep ord minEv level S = .ok (S', true)) : ppStep ord minEv' level S = .ok (S', true) := by
  unfold ppStep at h ⊢
  split at h
  · cases h
  · dsimp only at h ⊢
    split at h
    · cases h
    · rw [if_neg (by omega)]
      exact h

theorem ppStep_false {ord : List Nat → List Nat} {minEv level : Int} {S S' : PpState} (h : ppStep ord minEv level S = .ok (S', false)) : S' = S := by
  unfold ppStep at h
  split at h
  · cases h
  · dsimp only at h
    split at h
    · cases h; rfl
    · split at h
      · split at h
        · cases h
        · split at h
          · cases h
          · split at h
            · cases h
            · split at h <;> cases h
      · cases h

theorem ppStep_len {ord : List Nat → List Nat} {minEv level : Int} {S S' : PpState} (h : ppStep ord minEv level S = .ok (S', true)) :
    S'.vocab.length = S.vocab.length + 1 := by
  unfold ppStep at h
  split at h
  · cases h
  · dsimp only at h
    split at h
    · cases h
    · split at h
      · split at h
        · cases h
        · split at h
          · cases h
          · split at h
            · cases h
            · split at h
              · cases h
              · cases h; simp
      · cases h

theorem ppLoop_low {ord : Nat → List Nat → List Nat} {minEv minEv' level : Int} (hm : minEv' ≤ minEv) {n : Nat} {S S' : PpState}
    (h : ppLoop ord minEv level n S = .ok S') :
    S'.vocab.length ≤ S.vocab.length + n ∧ (S'.vocab.length = S.vocab.length + n → ppLoop ord minEv' level n S = .ok S') := by
  induction n generalizing S with
  | zero =>
    simp only [ppLoop] at h
    cases h
    exact ⟨Nat.le_refl _, fun _ => rfl⟩
  | succ n ih =>
    simp only [ppLoop] at h
    split at h
    · cases h
    · rename_i S1 hst
      obtain ⟨i1, i2⟩ := ih h
      have hl := ppStep_len hst
      refine ⟨by omega, fun he => ?_⟩
      simp only [ppLoop, ppStep_low hm hst]
      exact i2 (by omega)
    · rename_i S1 hst
      cases h
      rw [ppStep_false hst]
      exact ⟨by omega, fun he => by omega⟩

/-- C83 for thresholds below 1: if with a higher threshold, for example 1, all `n` rounds are done, then the lower threshold gives the same table, so
that the other theorems apply.  Missing: what is added when no pair is left (see `C83_zero_refuted`). -/
theorem C83_low_partial {ord : Nat → List Nat → List Nat} {tr : Troubles} {seqs : Corpus} {exc : Option Exc} {vocab v' : List Ty}
    {n minEv minEv' level : Int} (hm : minEv' ≤ minEv) (h : ppLearn ord tr seqs exc vocab n minEv level = .ok v')
    (hn : v'.length = vocab.length + n.toNat) : ppLearn ord tr seqs exc vocab n minEv' level = .ok v' := by
  unfold ppLearn at h ⊢
  split at h
  · cases h
  · split at h
    · cases h
    · rename_i S hS
      cases h
      rw [(ppLoop_low hm hS).2 hn]

/-- two rounds on "abc" with the thresholds 1 and 0 -/
example : outcome (ppLearn ordId .replace [([0, 1, 2], 1)] none (exChars ["a", "b", "c"]) 2 1 1) =
      .ok [(lit "a", 0), (lit "b", 0), (lit "c", 0), (lit "ab", 1), (lit "abc", 1)] ∧
    outcome (ppLearn ordId .replace [([0, 1, 2], 1)] none (exChars ["a", "b", "c"]) 2 0 1) =
      .ok [(lit "a", 0), (lit "b", 0), (lit "c", 0), (lit "ab", 1), (lit "abc", 1)] := by decide +kernel

/-! ## C84 -/

theorem ppLearn_nil (ord : Nat → List Nat → List Nat) (v : List Ty) (n minEv level : Int) :
    ∃ e, ppLearn ord .replace [] none v n minEv level = .error e := by
  obtain ⟨e, he⟩ := learnCodes_nil ord v 0 minEv level
  unfold ppLearn
  rw [ppInit_replace]
  unfold learnCodes at he
  have : squeezed [] = [] := rfl
  rw [this]
  cases hb : bpeInit [] v with
  | error e => exact ⟨e, rfl⟩
  | ok I =>
    exfalso
    unfold bpeInit at hb
    split at hb
    · cases hb
    · cases hc : checkIdx 0 v with
      | error e => rw [hc] at hb; cases hb
      | ok u =>
        rw [hc] at hb
        simp only [createIndex] at hb
        simp [validateIndex, Dict.keys, pyMax] at hb

/-- words counted by `learn_subwords_from_corpus` -/
theorem ppCounts_spec {lines : List Str} {toks : List (List Str)} (ht : List.Forall₂ Tokens lines toks) :
    (Dict.keys (ppCounts lines)).Nodup ∧ (∀ n f, (n, f) ∈ ppCounts lines ↔ n ∈ toks.flatten ∧ f = toks.flatten.count n) ∧
    ∀ p ∈ ppCounts lines, p.1 ≠ [] := by
  have e : (lines.flatMap fun l => split (strip l)) = toks.flatten := by
    induction ht with
    | nil => rfl
    | cons h1 _ ih => rw [List.flatMap_cons, List.flatten_cons, ih, split_strip, split_of_tokens h1]
  refine ⟨Dict.nodup_keys_count (by simp [Dict.keys]) _, ?_, ?_⟩
  · intro n f
    rw [ppCounts, e, mem_count_nil]
  · rintro ⟨n, f⟩ hp
    rw [ppCounts, mem_count_nil] at hp
    obtain ⟨l, _, hl⟩ := List.mem_flatMap.1 hp.1
    exact (split_isToken hl).1

/-- C84: the level 1 vocabulary learned from lines of text.  The words are the tokens that occur at least `word_min_freq` times;
the initial vocabulary has the reserved types and all characters of these words (ended by U+2581) that occur at least
`char_min_freq` times, most frequent first, with their counts; with size -1 this is the result.  Otherwise the words are spelled
with these symbols (other characters: `<unk>`), runs are cut, and rounds of merges follow as in `C83_rounds_partial`.

Missing: as there, what happens after a most frequent pair `x x` meets `x x x`. -/
theorem C84_text_partial {ord : Nat → List Nat → List Nat} (hord : ∀ i l, (ord i l).Perm l) {lines : List Str} {toks : List (List Str)}
    (ht : List.Forall₂ Tokens lines toks) {vs minEv charMin wordMin : Int} (hmin : 1 ≤ minEv) {vocab : List Ty}
    (h : ppSubwords ord (ppCounts lines) vs minEv charMin wordMin = .ok vocab) :
    ∃ (tf cf : List (Str × Int)) (v0 : List Ty),
      (∀ n f, (n, f) ∈ tf ↔ n ∈ toks.flatten ∧ f = toks.flatten.count n ∧ wordMin ≤ f) ∧ (tf.map (·.1)).Nodup ∧
      (∀ n f, (n, f) ∈ cf ↔ ∃ c, n = [c] ∧ f = chCount tf c ∧ 0 < f) ∧
      VocabContract Level.char charMin cf v0 ∧ (∀ p ∈ cf, charMin ≤ p.2 → p.1 ∈ names v0) ∧ (∀ t ∈ v0.take 6, t.freq = -1) ∧
      ((vs = -1 ∧ vocab = v0) ∨
       (v0.length < vs ∧ ∃ (C D : Corpus) (k : Nat) (C' : Corpus) (v' : List Ty), List.Forall₂ (CodedWord v0) tf C ∧ Squeezed C D ∧
          RunMax minEv Level.subword D v0 k C' v' ∧
          ((vocab = v' ∧ ((vocab.length : Int) = vs ∨ ∀ q, pairCount C' q < minEv)) ∨
           ∃ p, IsMax C' p ∧ minEv ≤ pairCount C' p ∧ ¬ Apart C' p))) := by
  obtain ⟨t1, t2, t3⟩ := ppCounts_spec ht
  by_cases hcm : 1 ≤ charMin
  swap
  · simp [ppSubwords, hcm] at h
  by_cases hwm : 1 ≤ wordMin
  swap
  · simp [ppSubwords, hcm, hwm] at h
  obtain ⟨tf1, cf, v0, C, a1, a2, a3, a4, a5, a6, a7, a8, a9, a10⟩ := ppSubwords_cases (ord := ord) t1 t3 (vs := vs) (minEv := minEv) hcm hwm
  refine ⟨tf1, cf, v0, ?_, a2, a3, a4, a5, a6, ?_⟩
  · intro n f
    rw [a1, t2]
    tauto
  · rw [a10] at h
    split at h
    · rename_i hv; cases h; exact Or.inl ⟨hv, rfl⟩
    · split at h
      · rename_i hlt
        right
        refine ⟨hlt, C, squeezed C, ?_⟩
        by_cases hne : C = []
        · subst hne
          obtain ⟨e, he⟩ := ppLearn_nil ord v0 (vs - v0.length) minEv Level.subword
          rw [he] at h; cases h
        · obtain ⟨k, C', v', hk, hrun, hres⟩ := C83_rounds_partial hord hmin Level.subword (vs - v0.length) hne a8 a4.indexed a4.distinct a9 (squeezed_spec C)
          refine ⟨k, C', v', a7, squeezed_spec C, hrun, ?_⟩
          rcases hres with ⟨h1, h2⟩ | ⟨h1, _⟩ | ⟨_, h2⟩
          · rw [h1] at h; cases h
            refine Or.inl ⟨rfl, h2.imp (fun h => ?_) id⟩
            obtain ⟨new, e, hl, _⟩ := hrun.shape
            rw [e, List.length_append, hl]
            omega
          · rw [h1] at h; cases h
          · exact Or.inr h2
      · cases h

/-- codes of characters that are all in the table determine the characters -/
theorem codedWord_cubeFree {v0 : List Ty} {tf : List (Str × Int)} {C : Corpus} (h : List.Forall₂ (CodedWord v0) tf C)
    (hcov : ∀ p ∈ tf, ∀ c ∈ p.1 ++ [SP], [c] ∈ names v0)
    (hfree : ∀ p ∈ tf, ∀ b : Str, b ≠ [] → ¬ (b ++ b ++ b) <:+: p.1 ++ [SP]) : CubeFree C := by
  intro s hs w hw hi
  obtain ⟨p, hp, _, hf⟩ := mem_of_forall₂_right h s hs
  have hinj : ∃ g : Nat → Nat, p.1 ++ [SP] = s.1.map g := by
    refine ⟨fun i => ((v0[i]?.map (·.name)).getD []).headD 0, ?_⟩
    have hc := hcov p hp
    change List.Forall₂ (CodeOf v0) (p.1 ++ [SP]) s.1 at hf
    clear hi hs hfree
    revert hc
    generalize p.1 ++ [SP] = l at hf
    generalize s.1 = m at hf
    intro hc
    induction hf with
    | nil => rfl
    | @cons c i l m hci _ ih =>
      rw [List.map_cons, ← ih (fun c h => hc c (by simp [h]))]
      congr 1
      rcases hci with ⟨t, ht, hn⟩ | ⟨hno, _⟩
      · simp [ht, hn]
      · exact absurd (hc c (by simp)) hno
  obtain ⟨g, hg⟩ := hinj
  obtain ⟨A, B, hAB⟩ := hi
  refine hfree p hp (w.map g) (by simpa using hw) ?_
  rw [hg, ← hAB]
  exact ⟨A.map g, B.map g, by simp⟩

/-- C84: if all characters are kept (`char_min_freq=1`) and no word used for learning, ended by U+2581, contains a block three
times in a row, learning a vocabulary larger than the initial one either returns the table of a BPE run that ends at the
requested size or when no pair reaches the threshold, or raises ValueError because all words have become single symbols.
Missing: words with such blocks (see `C84_hahaha_refuted`). -/
theorem C84_cube_free_partial {ord : Nat → List Nat → List Nat} (hord : ∀ i l, (ord i l).Perm l) {lines : List Str} {toks : List (List Str)}
    (ht : List.Forall₂ Tokens lines toks) {vs minEv wordMin : Int} (hmin : 1 ≤ minEv) (hwm : 1 ≤ wordMin)
    (hsome : ∃ w ∈ toks.flatten, wordMin ≤ toks.flatten.count w)
    (hfree : ∀ w ∈ toks.flatten, wordMin ≤ toks.flatten.count w → ∀ b : Str, b ≠ [] → ¬ (b ++ b ++ b) <:+: w ++ [0x2581])
    (hbig : (6 + (toks.flatten.flatten.dedup.length : Int)) < vs) :
    ∃ (tf cf : List (Str × Int)) (v0 : List Ty) (C : Corpus) (k : Nat) (C' : Corpus) (v' : List Ty),
      (∀ n f, (n, f) ∈ tf ↔ n ∈ toks.flatten ∧ f = toks.flatten.count n ∧ wordMin ≤ f) ∧ (tf.map (·.1)).Nodup ∧
      (∀ n f, (n, f) ∈ cf ↔ ∃ c, n = [c] ∧ f = chCount tf c ∧ 0 < f) ∧ VocabContract Level.char 1 cf v0 ∧
      List.Forall₂ (CodedWord v0) tf C ∧ RunMax minEv Level.subword C v0 k C' v' ∧
      ((ppSubwords ord (ppCounts lines) vs minEv 1 wordMin = .ok v' ∧ ((v'.length : Int) = vs ∨ ∀ q, pairCount C' q < minEv)) ∨
       (ppSubwords ord (ppCounts lines) vs minEv 1 wordMin = .error .value ∧ (v'.length : Int) < vs ∧ ∀ s ∈ C', ∃ c, s.1 = [c])) := by
  obtain ⟨t1, t2, t3⟩ := ppCounts_spec ht
  obtain ⟨tf1, cf, v0, C, a1, a2, a3, a4, a5, a6, a7, a8, a9, a10⟩ :=
    ppSubwords_cases (ord := ord) t1 t3 (vs := vs) (minEv := minEv) (charMin := 1) (le_refl 1) hwm
  have htf : ∀ n f, (n, f) ∈ tf1 ↔ n ∈ toks.flatten ∧ f = toks.flatten.count n ∧ wordMin ≤ f := by
    intro n f; rw [a1, t2]; tauto
  have hcnt : ∀ p ∈ tf1, ∀ c ∈ p.1 ++ [SP], 0 < chCount tf1 c := by
    have key : ∀ (l : List (Str × Int)) (c : Nat), (∀ p ∈ l, 1 ≤ p.2) → 0 ≤ chCount l c ∧ ∀ p ∈ l, c ∈ p.1 ++ [SP] → 0 < chCount l c := by
      intro l c
      induction l with
      | nil => intro _; simp [chCount]
      | cons x l ih =>
        intro hl
        obtain ⟨i1, i2⟩ := ih (fun p hp => hl p (by simp [hp]))
        have hx := hl x (by simp)
        have h0 : 0 ≤ x.2 * ((x.1 ++ [SP]).count c : Int) := mul_nonneg (by omega) (Int.natCast_nonneg _)
        rw [chCount_cons]
        refine ⟨by omega, ?_⟩
        intro p hp hc
        rcases List.mem_cons.1 hp with rfl | hp
        · have h2 := List.count_pos_iff.2 hc
          have h3 : (0 : Int) < p.2 * ((p.1 ++ [SP]).count c : Int) := mul_pos (by omega) (by omega)
          omega
        · have := i2 p hp hc; omega
    intro p hp c hc
    refine (key tf1 c ?_).2 p hp hc
    rintro ⟨n, f⟩ hp
    exact le_trans hwm ((a1 _).1 hp).2
  have hcov : ∀ p ∈ tf1, ∀ c ∈ p.1 ++ [SP], [c] ∈ names v0 := by
    intro p hp c hc
    have := hcnt p hp c hc
    exact a5 ([c], chCount tf1 c) ((a3 _ _).2 ⟨c, rfl, rfl, this⟩) this
  have hcube : CubeFree C := by
    refine codedWord_cubeFree a7 hcov ?_
    rintro ⟨n, f⟩ hp
    obtain ⟨h1, h2, h3⟩ := (htf n f).1 hp
    subst h2
    exact hfree n h1 h3
  have hne : C ≠ [] := by
    rintro rfl
    obtain ⟨w, hw, hc⟩ := hsome
    have := (htf w _).2 ⟨hw, rfl, hc⟩
    cases a7
    simp at this
  have hlen : (v0.length : Int) < vs := by
    have hl : v0.length = (v0.take 6).length + (v0.drop 6).length := by
      rw [← List.length_append, List.take_append_drop]
    have h6 : (v0.take 6).length = 6 := by
      have := congrArg List.length a4.reserved
      simpa using this
    have hd : (v0.drop 6).length ≤ toks.flatten.flatten.dedup.length := by
      have hnd : ((v0.drop 6).map (·.name)).Nodup := a4.distinct.sublist ((List.drop_sublist 6 v0).map _)
      have hsub : ((v0.drop 6).map (·.name)) ⊆ (toks.flatten.flatten.dedup.map fun c => [c]) := by
        intro n hn
        obtain ⟨t, htm, rfl⟩ := List.mem_map.1 hn
        obtain ⟨c, hc, hf, hpos⟩ := (a3 _ _).1 (a4.counted t htm).1
        rw [hc]
        refine List.mem_map.2 ⟨c, ?_, rfl⟩
        rw [List.mem_dedup, List.mem_flatten]
        have hspn : c ≠ SP := by
          rintro rfl
          have hr : [SP] ∈ names (v0.take 6) := by
            have := congrArg (List.map (fun x : Str × Int × List Ty => x.1)) a4.reserved
            simp only [List.map_map] at this
            change names (v0.take 6) = _ at this
            rw [this]; decide
          have := a4.distinct
          rw [names, ← List.take_append_drop 6 v0, List.map_append, List.nodup_append] at this
          exact this.2.2 _ hr _ (List.mem_map.2 ⟨t, htm, rfl⟩) (by rw [hc])
        rw [hf] at hpos
        by_contra hno
        have hz : chCount tf1 c = 0 := by
          have : ∀ l : List (Str × Int), (∀ p ∈ l, c ∉ p.1 ++ [SP]) → chCount l c = 0 := by
            intro l
            induction l with
            | nil => intro _; simp [chCount]
            | cons x l ih =>
              intro hl
              rw [chCount_cons, ih (fun p hp => hl p (by simp [hp])), List.count_eq_zero.2 (hl x (by simp))]
              simp
          refine this tf1 ?_
          rintro ⟨n, f⟩ hp hm
          rcases List.mem_append.1 hm with hm | hm
          · exact hno ⟨n, ((htf n f).1 hp).1, hm⟩
          · simp at hm; exact hspn hm
        omega
      have := (List.subperm_of_subset hnd hsub).length_le
      simpa using this
    omega
  obtain ⟨k, C', v', hk, hrun, hres⟩ := C83_cube_free_partial hord hmin Level.subword (vs - v0.length) hne a8 a4.indexed a4.distinct a9 hcube
  have hv' : v'.length = v0.length + k := by
    obtain ⟨new, e, hl, _⟩ := hrun.shape
    rw [e, List.length_append, hl]
  refine ⟨tf1, cf, v0, C, k, C', v', htf, a2, a3, a4, a7, hrun, ?_⟩
  rw [a10, if_neg (by omega), if_pos hlen]
  rcases hres with ⟨h1, h2⟩ | ⟨h1, h2, h3⟩
  · exact Or.inl ⟨h1, h2.imp (fun h => by omega) id⟩
  · exact Or.inr ⟨h1, by omega, h3⟩

/-- C84: options below 1 are refused. -/
theorem C84_options {ord : Nat → List Nat → List Nat} {tf : Dict Str Int} {vs minEv charMin wordMin : Int} (h : charMin < 1 ∨ wordMin < 1) :
    ppSubwords ord tf vs minEv charMin wordMin = .error .assertion := by
  unfold ppSubwords
  by_cases h1 : 1 ≤ charMin
  · rw [if_neg (by omega), if_pos (by omega)]
  · rw [if_pos h1]

/-- words "ab" (3 times), "ac" (twice), "d" (once, below the least word frequency): c occurs twice and is kept -/
example : outcome (ppSubwords ordId (ppCounts [lit "ab ac ab ", lit "d ac\tab"]) 11 2 2 2) =
    .ok [(lit "<pad>", -1), (lit "<unk>", -1), (lit "<s>", -1), (lit "</s>", -1), (lit "<cls>", -1), ([SP], -1), (lit "a", 5),
      (lit "b", 3), (lit "c", 2), (lit "ab", 3), (lit "ab▁", 3)] := by decide +kernel
/-- size -1: characters only -/
example : outcome (ppSubwords ordId (ppCounts [lit "ab ac ab ", lit "d ac\tab"]) (-1) 2 3 1) =
    .ok [(lit "<pad>", -1), (lit "<unk>", -1), (lit "<s>", -1), (lit "</s>", -1), (lit "<cls>", -1), ([SP], -1), (lit "a", 5),
      (lit "b", 3)] := by decide +kernel

/-- C84 refuted: a word such as "hahaha" may end learning with an AssertionError. -/
theorem C84_hahaha_refuted : outcome (ppSubwords ordId (ppCounts [lit "hahaha hahaha"]) 12 2 1 1) = .error .assertion := by decide +kernel

/-- C84 refuted: learned names need not occur in the training text.  Rare characters enter the merges as `<unk>` ("<unk>a" from
"xa" and "ya"), and cut runs give strings that are nowhere in the text ("baac" from "baaac"). -/
theorem C84_names_refuted :
    outcome (ppSubwords ordId (ppCounts [lit "xa ya"]) 9 2 2 1) =
      .ok [(lit "<pad>", -1), (lit "<unk>", -1), (lit "<s>", -1), (lit "</s>", -1), (lit "<cls>", -1), ([SP], -1), (lit "a", 2),
        (lit "<unk>a", 2), (lit "<unk>a▁", 2)] ∧
    (match outcome (ppSubwords ordId (ppCounts [lit "baaac baaac"]) 13 2 1 1) with
      | .ok l => decide ((lit "baac▁", 2) ∈ l)
      | .error _ => false) = true := by
  constructor <;> decide +kernel

end Verif
