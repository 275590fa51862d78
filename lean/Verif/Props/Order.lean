import Verif.Lemmas.BpeDet
import Verif.Lemmas.LearnOrder
import Verif.Props.Main
import Verif.Props.Bpepp
/-!
# Properties C24 (words without repeated blocks) and C92: what learning depends on

The iteration order of the hash sets does not matter for words that contain no block three times in a row, and neither does
the order of the words.  The order of the lines of the data matters only through ties between frequencies.
-/

namespace Verif
open Spec

/-! ## C24 -/

/-- without sequences learning fails, whatever the order -/
theorem learnCodes_nil_order (ord ord' : Nat → List Nat → List Nat) (v : List Ty) (n : Nat) (minEv level : Int) :
    learnCodes ord [] v n minEv level = learnCodes ord' [] v n minEv level := by
  obtain ⟨e, h⟩ : ∃ e, bpeInit [] v = .error e := by
    unfold bpeInit
    split
    · exact ⟨_, rfl⟩
    · split
      · exact ⟨_, rfl⟩
      · refine ⟨.value, ?_⟩
        simp [createIndex, validateIndex, Dict.keys, pyMax]
  simp only [learnCodes, h]

/-- C24, if no sequence contains a block three times in a row: the order of the sets and the order of the sequences are
irrelevant, for the table learned as well as for failing.  Merged pairs may have equal parts.  Missing: sequences with such blocks,
for which the claim is false (`C24_refuted`). -/
theorem C24_cube_free_partial {ord ord' : Nat → List Nat → List Nat} (hord : ∀ i l, (ord i l).Perm l)
    (hord' : ∀ i l, (ord' i l).Perm l) {minEv level : Int} {n : Nat} {seqs seqs' : Corpus} (hp : seqs.Perm seqs') {vocab : List Ty}
    (hs : ∀ s ∈ seqs, s.1 ≠ [] ∧ 0 < s.2) (hidx : Indexed vocab) (hnames : (names vocab).Nodup)
    (hcodes : ∀ s ∈ seqs, ∀ c ∈ s.1, c < vocab.length) (hcube : CubeFree seqs) :
    learnCodes ord seqs vocab n minEv level = learnCodes ord' seqs' vocab n minEv level := by
  by_cases hne : seqs = []
  · subst hne
    rw [hp.symm.eq_nil]
    exact learnCodes_nil_order _ _ _ _ _ _
  have hne' : seqs' ≠ [] := fun e => hne (by subst e; exact hp.eq_nil)
  have hs' : ∀ s ∈ seqs', s.1 ≠ [] ∧ 0 < s.2 := fun s h => hs s (hp.mem_iff.2 h)
  have hc' : ∀ s ∈ seqs', ∀ c ∈ s.1, c < vocab.length := fun s h => hcodes s (hp.mem_iff.2 h)
  have noBest : ∀ {C D : Corpus}, C.Perm D → (∃ p, IsBest C p ∧ pairCount C p < minEv) → (∀ q, pairCount D q = 0) → False := by
    rintro C D h ⟨p, hb, _⟩ h0
    have := hb.1
    rw [pairCount_perm h, h0] at this
    exact absurd this (by decide)
  rcases learnCodes_spec hord minEv level n hne hs (fun i t ht => hidx i t ht) hnames hcodes with ⟨v1, k1, C1, h1, h2, h3, h4⟩ |
    ⟨k1, C1, v1, h1, h2, h3, h4⟩
  all_goals
    rcases learnCodes_spec hord' minEv level n hne' hs' (fun i t ht => hidx i t ht) hnames hc' with ⟨v2, k2, C2, g1, g2, g3, g4⟩ |
      ⟨k2, C2, v2, g1, g2, g3, g4⟩
  · obtain ⟨_, _, rfl⟩ := h3.det_cubeFree hp g3 hs hcodes hcube h2 g2 (h4.imp id Or.inl) (g4.imp id Or.inl)
    rw [h1, g1]
  · obtain ⟨rfl, hperm, rfl⟩ := h3.det_cubeFree hp g3 hs hcodes hcube h2 (le_of_lt g2) (h4.imp id Or.inl) (Or.inr (Or.inr g4))
    rcases h4 with rfl | h4
    · omega
    · exact (noBest hperm h4 g4).elim
  · obtain ⟨rfl, hperm, rfl⟩ := h3.det_cubeFree hp g3 hs hcodes hcube (le_of_lt h2) g2 (Or.inr (Or.inr h4)) (g4.imp id Or.inl)
    rcases g4 with rfl | g4
    · omega
    · exact (noBest hperm.symm g4 h4).elim
  · rw [h1, g1]

/-- "abab" and "cab" in either order: the pair (ab, ab) with equal parts is merged in both -/
example : outcome (learnCodes ordId [([0, 1, 0, 1], 3), ([2, 0, 1], 2)] (exChars ["a", "b", "c"]) 2 2 1) =
      .ok [(lit "a", 0), (lit "b", 0), (lit "c", 0), (lit "ab", 8), (lit "abab", 3)] ∧
    outcome (learnCodes ordRev [([2, 0, 1], 2), ([0, 1, 0, 1], 3)] (exChars ["a", "b", "c"]) 2 2 1) =
      .ok [(lit "a", 0), (lit "b", 0), (lit "c", 0), (lit "ab", 8), (lit "abab", 3)] := by decide +kernel
/-- the codes of words with the same entries, in another order -/
theorem codedWord_perm {v0 : List Ty} {tf tf' : List (Str × Int)} {C' : Corpus} (h : tf.Perm tf')
    (hc : List.Forall₂ (CodedWord v0) tf' C') : ∃ D, List.Forall₂ (CodedWord v0) tf D ∧ D.Perm C' := by
  induction h generalizing C' with
  | nil => cases hc; exact ⟨[], .nil, .nil⟩
  | cons x _ ih =>
    cases hc with
    | cons hx hc =>
      obtain ⟨C1, h1, h2⟩ := ih hc
      exact ⟨_, .cons hx h1, h2.cons _⟩
  | swap x y l =>
    cases hc with
    | cons hx hc =>
      cases hc with
      | cons hy hc => exact ⟨_, .cons hy (.cons hx hc), .swap _ _ _⟩
  | trans _ _ ih1 ih2 =>
    obtain ⟨C1, h1, h2⟩ := ih2 hc
    obtain ⟨C2, h3, h4⟩ := ih1 h1
    exact ⟨C2, h3, h4.trans h2⟩

/-- all characters of the words are kept when no coverage is given -/
theorem chars_kept {A : Acc} {tf cf : List (Str × Int)} (t2 : ∀ p ∈ tf, 1 ≤ p.2) (c1 : (Dict.keys cf).Nodup)
    (c2 : ∀ n f, (n, f) ∈ cf ↔ ∃ c, n = [c] ∧ f = chCount tf c ∧ 0 < f) {lc : Int} {v0 : List Ty}
    (c3 : VocabContract Level.char 1 cf v0) (c0 : getInitVocab A Level.char cf none (some lc) 1 (-1) = .ok v0) :
    ∀ p ∈ tf, ∀ c ∈ p.1 ++ [SP], [c] ∈ names v0 := by
  have hcpos : ∀ p ∈ cf, 1 ≤ p.2 := by
    rintro ⟨n, f⟩ hp
    obtain ⟨c, _, _, h⟩ := (c2 n f).1 hp
    exact h
  intro p hp c hc
  rcases List.mem_append.1 hc with hc | hc
  · exact kept_all c1 hcpos c0 (le_refl _) (Or.inl (by decide)) ((c2 [c] _).2 ⟨c, rfl, rfl, chCount_pos_of_mem t2 hp hc⟩)
  · simp only [List.mem_singleton] at hc
    subst hc
    have := congrArg (List.map (fun x : Str × Int × List Ty => x.1)) c3.reserved
    simp only [List.map_map] at this
    change names (v0.take 6) = _ at this
    have h6 : [SP] ∈ names (v0.take 6) := by rw [this]; decide
    exact ((List.take_sublist 6 v0).map _).subset h6

/-- C24 from text: if no word, ended by U+2581, contains a block three times in a row, learning a BPE vocabulary (without a
coverage limit) gives the same result for every order of the sets.  Missing: words with such blocks (`C24_refuted`); for
coverage limits, which replace different characters by the same unknown symbol, see `C24_coverage_partial`. -/
theorem C24_text_partial {ord ord' : Nat → List Nat → List Nat} (hord : ∀ i l, (ord i l).Perm l) (hord' : ∀ i l, (ord' i l).Perm l)
    {A : Acc} {data : List Str} {toks : List (List Str)} (ht : List.Forall₂ Tokens data toks)
    (hfree : ∀ w ∈ toks.flatten, ∀ b : Str, b ≠ [] → ¬ (b ++ b ++ b) <:+: w ++ [0x2581]) (vs mf minEv : Int) :
    bpeLearn ord A data vs mf none minEv = bpeLearn ord' A data vs mf none minEv := by
  have hv : ∀ c, (none : Option A.F) = some c → A.valid c = true := by simp
  obtain ⟨t1, t2, t3⟩ := termFrequencies_word data
  obtain ⟨cf, v0, C, c1, c2, c3, c4, c5, c6, c0, c7⟩ := bpeLearnTf_all t1 t2 t3 (lc := (termFrequencies .word data).2)
    (vs := vs) (mf := mf) (minEv := minEv) hv
  have hcube : CubeFree C := by
    refine codedWord_cubeFree c4 (chars_kept t2 c1 c2 c3 c0) ?_
    rintro ⟨n, f⟩ hp
    have := ((C15_counts (k := .word) data toks ht (Or.inl rfl) n f).1 hp).1
    simp only [if_true] at this
    exact hfree n (by simpa [List.mem_flatMap, List.mem_flatten] using this)
  simp only [bpeLearn]
  rw [c7 ord, c7 ord', C24_cube_free_partial hord hord' (List.Perm.refl C) c5 c3.indexed c3.distinct c6 hcube]

/-- the text "abab cab abab abab cab" is learned the same in both orders -/
example : bpeLearn ordId accExact [lit "abab cab abab", lit "abab cab"] 12 1 none 2 =
    bpeLearn ordRev accExact [lit "abab cab abab", lit "abab cab"] 12 1 none 2 ∧
    (outcome (bpeLearn ordRev accExact [lit "abab cab abab", lit "abab cab"] 12 1 none 2)).toOption.map (fun v => v.drop 9) =
      some [(lit "ab", 8), (lit "ab▁", 5), (lit "abab▁", 3)] := by decide +kernel

/-! ## C92 -/

theorem termFrequencies_perm (k : Kind) {data data' : List Str} (h : data.Perm data') :
    (termFrequencies k data).1.Perm (termFrequencies k data').1 := by
  have h1 := termFrequencies_count k data
  have h2 := termFrequencies_count k data'
  have n1 := termFrequencies_nodup k data
  have n2 := termFrequencies_nodup k data'
  generalize (termFrequencies k data).1 = d1 at h1 n1
  generalize (termFrequencies k data').1 = d2 at h2 n2
  have hp : (data.flatMap (learnPieces k)).Perm (data'.flatMap (learnPieces k)) := h.flatMap_right _
  refine (List.perm_ext_iff_of_nodup (List.Nodup.of_map _ n1) (List.Nodup.of_map _ n2)).2 ?_
  rintro ⟨n, f⟩
  rw [h1, h2, mem_count_nil, mem_count_nil, hp.mem_iff, hp.count_eq]

/-- what is counted for words, or for characters: the tokens, or the characters of the tokens joined by U+2581 -/
def counted (k : Kind) (toks : List (List Str)) : List Str :=
  toks.flatMap fun ws => if k = .word then ws else (List.intercalate [0x2581] ws).map fun c => [c]

theorem learnRaw_same {A : Acc} {k : Kind} (hk : k = .word ∨ k = .char) {data data' : List Str} (h : data.Perm data') (vs mf : Int)
    (cov : Option A.F) :
    (learnRaw A k data vs mf cov = .error .assertion ∧ learnRaw A k data' vs mf cov = .error .assertion) ∨
    ∃ j R lv, R.length = 6 ∧
      learnRaw A k data vs mf cov = .ok (R ++ ((sortByFreq (popReserved (termFrequencies k data).1)).take j).zipIdx.map fun (p, i) =>
          { name := p.1, level := lv, idx := i + 6, freq := p.2, kids := [] }) ∧
      learnRaw A k data' vs mf cov = .ok (R ++ ((sortByFreq (popReserved (termFrequencies k data').1)).take j).zipIdx.map fun (p, i) =>
          { name := p.1, level := lv, idx := i + 6, freq := p.2, kids := [] }) := by
  have hl : (termFrequencies k data).2 = (termFrequencies k data').2 := by simp [termFrequencies, h.length_eq]
  have e : ∀ d, learnRaw A k d vs mf cov = getInitVocab A (if k = .word then Level.word else Level.char) (termFrequencies k d).1 cov
      (some (termFrequencies k d).2) mf vs := by
    intro d
    rcases hk with rfl | rfl <;> rfl
  rw [e, e, ← hl]
  rcases getInitVocab_same (A := A) (level := if k = .word then Level.word else Level.char) (termFrequencies_perm k h)
    (termFrequencies_nodup k data) (termFrequencies_pos k data) cov (some (termFrequencies k data).2) mf vs with h1 | ⟨j, R, h0, h1, h2⟩
  · exact Or.inl h1
  · exact Or.inr ⟨j, R, _, h0, h1, h2⟩

/-- C92, words and characters: whatever the order of the lines, learning goes through in both orders or in none, the frequencies of
the two vocabularies are the same position by position, and a type more frequent than some other learned type is learned in both.
Missing: the names at equal frequencies (`C92_order_refuted`). -/
theorem C92_freqs_partial {A : Acc} {k : Kind} (hk : k = .word ∨ k = .char) {data data' : List Str} (h : data.Perm data') (vs mf : Int)
    (cov : Option A.F) :
    (learnRaw A k data vs mf cov = .error .assertion ∧ learnRaw A k data' vs mf cov = .error .assertion) ∨
    ∃ v v', learnRaw A k data vs mf cov = .ok v ∧ learnRaw A k data' vs mf cov = .ok v' ∧ v.map (·.freq) = v'.map (·.freq) ∧
      v.take 6 = v'.take 6 ∧
      ∀ t ∈ v.drop 6, (∃ u ∈ v.drop 6, u.freq < t.freq) → ∃ t' ∈ v'.drop 6, t'.name = t.name ∧ t'.freq = t.freq := by
  have hp := popReserved_perm (termFrequencies_perm k h) (termFrequencies_nodup k data)
  rcases learnRaw_same (A := A) hk h vs mf cov with h1 | ⟨j, R, lv, h0, h1, h2⟩
  · exact Or.inl h1
  · right
    have hs := sortByFreq_same hp
    have hperm := (sortByFreq_perm _).trans (hp.trans (sortByFreq_perm _).symm)
    have hsort := sortByFreq_sorted (popReserved (termFrequencies k data').1)
    refine ⟨_, _, h1, h2, ?_, by rw [List.take_left' h0, List.take_left' h0], ?_⟩
    · rw [List.map_append, List.map_append]
      congr 1
      have key : ∀ (l : List (Str × Int)) (i : Nat), ((l.zipIdx i).map fun (p, i) =>
          ({ name := p.1, level := lv, idx := i + 6, freq := p.2, kids := [] } : Ty)).map (·.freq) = l.map (·.2) := by
        intro l
        induction l with
        | nil => intros; rfl
        | cons p l ih => intro i; simp only [List.zipIdx_cons, List.map_cons, ih]
      rw [key, key]
      exact hs.take j
    · rw [List.drop_left' h0, List.drop_left' h0]
      rintro t ht ⟨u, hu, hlt⟩
      obtain ⟨⟨p, i⟩, hpi, rfl⟩ := List.mem_map.1 ht
      obtain ⟨⟨q, i2⟩, hqi, rfl⟩ := List.mem_map.1 hu
      have hpm := (List.mem_zipIdx' hpi).2 ▸ List.getElem_mem _
      have hqm := (List.mem_zipIdx' hqi).2 ▸ List.getElem_mem _
      have := mem_take_same hs hperm hsort hpm hqm hlt
      obtain ⟨i3, hi3⟩ := List.getElem?_of_mem this
      refine ⟨{ name := p.1, level := lv, idx := i3 + 6, freq := p.2, kids := [] }, ?_, rfl, rfl⟩
      refine List.mem_map.2 ⟨(p, i3), ?_, rfl⟩
      rw [List.mk_mem_zipIdx_iff_getElem?]
      exact hi3

/-- C92 for words and characters whose frequencies differ: the order of the lines is irrelevant.  Missing: ties
(`C92_order_refuted`). -/
theorem C92_distinct_partial {A : Acc} {k : Kind} (hk : k = .word ∨ k = .char) {data data' : List Str} (h : data.Perm data')
    {toks : List (List Str)} (ht : List.Forall₂ Tokens data toks)
    (hdist : ∀ x ∈ counted k toks, ∀ y ∈ counted k toks, x ∉ reservedNames → y ∉ reservedNames →
      (counted k toks).count x = (counted k toks).count y → x = y) (vs mf : Int) (cov : Option A.F) :
    learnRaw A k data vs mf cov = learnRaw A k data' vs mf cov := by
  have hn := termFrequencies_nodup k data
  have hp := popReserved_perm (termFrequencies_perm k h) hn
  have hc : ∀ n f, (n, f) ∈ (termFrequencies k data).1 ↔ n ∈ counted k toks ∧ f = ((counted k toks).count n : Nat) := by
    intro n f
    rw [C15_counts data toks ht hk n f]
    have : (counted k toks).count n = (toks.flatMap fun ws => if k = .word then ws else (List.intercalate [0x2581] ws).map fun c => [c]).count n := by
      unfold counted
      congr 1
    rw [this, counted]
  have hnd : ((popReserved (termFrequencies k data).1).map (·.2)).Nodup := by
    refine List.Nodup.map_on ?_ (List.Nodup.of_map _ (nodup_popReserved hn))
    rintro ⟨x, f⟩ hx ⟨y, g⟩ hy e
    obtain ⟨x1, x2⟩ := (mem_popReserved hn x f).1 hx
    obtain ⟨y1, y2⟩ := (mem_popReserved hn y g).1 hy
    obtain ⟨x3, x4⟩ := (hc x f).1 x1
    obtain ⟨y3, y4⟩ := (hc y g).1 y1
    simp only at e
    have := hdist x x3 y y3 x2 y2 (by omega)
    subst this
    rw [e]
  rcases learnRaw_same (A := A) hk h vs mf cov with ⟨h1, h2⟩ | ⟨j, R, lv, h0, h1, h2⟩
  · rw [h1, h2]
  · rw [h1, h2, sortByFreq_eq hp hnd]

/-- C92 for words and characters when nothing is cut off: the same types with the same frequencies, perhaps in another order. -/
theorem C92_types_partial {A : Acc} {k : Kind} (hk : k = .word ∨ k = .char) {data data' : List Str} (h : data.Perm data') {vs mf : Int}
    (hmf : mf ≤ 1) (hvs : vs ≤ 0) :
    ∃ v v', learnRaw A k data vs mf none = .ok v ∧ learnRaw A k data' vs mf none = .ok v' ∧
      (v.map fun t => (t.name, t.freq)).Perm (v'.map fun t => (t.name, t.freq)) := by
  have hp := popReserved_perm (termFrequencies_perm k h) (termFrequencies_nodup k data)
  have hall : ∀ d, ∃ v, learnRaw A k d vs mf none = .ok v ∧ (v.drop 6).map (fun t => (t.name, t.freq)) =
      sortByFreq (popReserved (termFrequencies k d).1) := by
    intro d
    have e : ∀ l : List (Str × Int), trimTerms l mf vs = (l, 0) := by
      intro l
      have h1 : ¬ 1 < mf := by omega
      have h2 : ¬ (0 < vs ∧ vs < (6 + l.length : Nat)) := by omega
      simp only [trimTerms, h1, if_false, h2]
    have key : ∀ (l : List (Str × Int)) (i : Nat) (lv : Int), ((l.zipIdx i).map fun (p, i) =>
          ({ name := p.1, level := lv, idx := i + 6, freq := p.2, kids := [] } : Ty)).map (fun t => (t.name, t.freq)) = l := by
      intro l
      induction l with
      | nil => intros; rfl
      | cons p l ih => intro i lv; simp only [List.zipIdx_cons, List.map_cons, ih]
    rcases hk with rfl | rfl
    all_goals
      refine ⟨_, by simp only [learnRaw, getInitVocab, e]; rfl, ?_⟩
      rw [List.drop_left' (by rfl : (updateReserved _ _ _).length = 6)]
      exact key _ _ _
  obtain ⟨v, h1, h2⟩ := hall data
  obtain ⟨v', g1, g2⟩ := hall data'
  refine ⟨v, v', h1, g1, ?_⟩
  rcases C92_freqs_partial (A := A) hk h vs mf none with ⟨e1, _⟩ | ⟨w, w', e1, e2, _, e4, _⟩
  · rw [h1] at e1; cases e1
  rw [h1] at e1; cases e1
  rw [g1] at e2; cases e2
  rw [← List.take_append_drop 6 v, ← List.take_append_drop 6 v', List.map_append, List.map_append, h2, g2, e4]
  exact List.Perm.append_left _ ((sortByFreq_perm _).trans (hp.trans (sortByFreq_perm _).symm))

/-- C92 is false: on ties the term met first gets the smaller index, so swapping two lines swaps indices; and with a size limit it
decides which term is kept. -/
theorem C92_order_refuted :
    outcome (learnRaw accExact .word [lit "a", lit "b"] 0 1 none) ≠ outcome (learnRaw accExact .word [lit "b", lit "a"] 0 1 none) ∧
    (outcome (learnRaw accExact .word [lit "a", lit "b"] 7 1 none)).toOption.map (fun v => v.drop 6) = some [(lit "a", 1)] ∧
    (outcome (learnRaw accExact .word [lit "b", lit "a"] 7 1 none)).toOption.map (fun v => v.drop 6) = some [(lit "b", 1)] ∧
    (outcome (learnRaw accExact .char [lit "a", lit "b"] 7 1 none)).toOption.map (fun v => v.drop 6) = some [(lit "a", 1)] ∧
    (outcome (learnRaw accExact .char [lit "b", lit "a"] 7 1 none)).toOption.map (fun v => v.drop 6) = some [(lit "b", 1)] := by decide

/-- C92 is false for BPE too, even for the set of learned types: ties between pairs are broken by the indices of the characters. -/
theorem C92_bpe_order_refuted :
    (outcome (bpeLearn ordId accExact [lit "ab", lit "cd"] 11 1 none 1)).toOption.map (fun v => v.drop 10) = some [(lit "ab", 1)] ∧
    (outcome (bpeLearn ordId accExact [lit "cd", lit "ab"] 11 1 none 1)).toOption.map (fun v => v.drop 10) = some [(lit "cd", 1)] := by
  decide +kernel

/-- C92 for BPE: if no word contains a block three times in a row and different characters have different frequencies, neither the
order of the lines nor the order of the sets matters.  Missing: ties (`C92_bpe_order_refuted`), repeated blocks; for
coverage limits see `C92_coverage_partial`. -/
theorem C92_bpe_partial {ord ord' : Nat → List Nat → List Nat} (hord : ∀ i l, (ord i l).Perm l) (hord' : ∀ i l, (ord' i l).Perm l)
    {A : Acc} {data data' : List Str} (h : data.Perm data') {toks : List (List Str)} (ht : List.Forall₂ Tokens data toks)
    (hfree : ∀ w ∈ toks.flatten, ∀ b : Str, b ≠ [] → ¬ (b ++ b ++ b) <:+: w ++ [0x2581])
    (hdist : ∀ c ∈ toks.flatten.flatten, ∀ d ∈ toks.flatten.flatten, c ≠ 0x2581 → d ≠ 0x2581 →
      toks.flatten.flatten.count c = toks.flatten.flatten.count d → c = d) (vs mf minEv : Int) :
    bpeLearn ord A data vs mf none minEv = bpeLearn ord' A data' vs mf none minEv := by
  have hv : ∀ c, (none : Option A.F) = some c → A.valid c = true := by simp
  have hpm := termFrequencies_perm .word h
  have hl : (termFrequencies .word data).2 = (termFrequencies .word data').2 := by simp [termFrequencies, h.length_eq]
  obtain ⟨t1, t2, t3⟩ := termFrequencies_word data
  obtain ⟨t1', t2', t3'⟩ := termFrequencies_word data'
  obtain ⟨cf, v0, C, c1, c2, c3, c4, c5, c6, c0, c7⟩ := bpeLearnTf_all t1 t2 t3 (lc := (termFrequencies .word data).2)
    (vs := vs) (mf := mf) (minEv := minEv) hv
  obtain ⟨cf', v0', C', d1, d2, d3, d4, d5, d6, d0, d7⟩ := bpeLearnTf_all t1' t2' t3' (lc := (termFrequencies .word data').2)
    (vs := vs) (mf := mf) (minEv := minEv) hv
  have hch : ∀ c, chCount (termFrequencies .word data).1 c = chCount (termFrequencies .word data').1 c := fun c => (hpm.map _).sum_eq
  have hcf : cf.Perm cf' := by
    refine (List.perm_ext_iff_of_nodup (List.Nodup.of_map _ c1) (List.Nodup.of_map _ d1)).2 ?_
    rintro ⟨n, f⟩
    rw [c2, d2]
    simp only [hch]
  have hcpos : ∀ p ∈ cf, 1 ≤ p.2 := by
    rintro ⟨n, f⟩ hp
    obtain ⟨c, _, _, h⟩ := (c2 n f).1 hp
    exact h
  have hcnt : ∀ c, c ≠ SP → chCount (termFrequencies .word data).1 c = (toks.flatten.flatten.count c : Nat) := by
    intro c hc
    rw [chCount_text ht]
    congr 1
    generalize toks.flatten = ws
    induction ws with
    | nil => rfl
    | cons w ws ih =>
      rw [List.flatMap_cons, List.flatten_cons, List.count_append, List.count_append, List.count_append, ih]
      have : List.count c [SP] = 0 := List.count_eq_zero.2 (by simpa using hc)
      omega
  have hnd : ((popReserved cf).map (·.2)).Nodup := by
    refine List.Nodup.map_on ?_ (List.Nodup.of_map _ (nodup_popReserved c1))
    rintro ⟨x, f⟩ hx ⟨y, g⟩ hy e
    obtain ⟨x1, x2⟩ := (mem_popReserved c1 x f).1 hx
    obtain ⟨y1, y2⟩ := (mem_popReserved c1 y g).1 hy
    obtain ⟨a, rfl, a1, a2⟩ := (c2 _ _).1 x1
    obtain ⟨b, rfl, b1, b2⟩ := (c2 _ _).1 y1
    have ha : a ≠ SP := by rintro rfl; exact x2 (by decide)
    have hb : b ≠ SP := by rintro rfl; exact y2 (by decide)
    rw [hcnt a ha] at a1
    rw [hcnt b hb] at b1
    simp only at e
    have := hdist a (List.count_pos_iff.1 (by omega)) b (List.count_pos_iff.1 (by omega)) ha hb (by omega)
    subst this
    rw [e]
  have hv0 : v0 = v0' := by
    rw [← hl] at d0
    rcases getInitVocab_same (A := A) (level := Level.char) hcf c1 hcpos none (some (termFrequencies .word data).2) 1 (-1) with
      ⟨h1, _⟩ | ⟨j, R, h0, h1, h2⟩
    · rw [c0] at h1; cases h1
    · rw [c0] at h1
      rw [d0] at h2
      cases h1; cases h2
      rw [sortByFreq_eq (popReserved_perm hcf c1) hnd]
  subst hv0
  have hC : C.Perm C' := by
    obtain ⟨D, hD, hDp⟩ := codedWord_perm hpm d4
    rw [codedWords_unique c3.distinct c4 hD]
    exact hDp
  have hcube : CubeFree C := by
    refine codedWord_cubeFree c4 (chars_kept t2 c1 c2 c3 c0) ?_
    rintro ⟨n, f⟩ hp
    have := ((C15_counts (k := .word) data toks ht (Or.inl rfl) n f).1 hp).1
    simp only [if_true] at this
    exact hfree n (by simpa [List.mem_flatMap, List.mem_flatten] using this)
  simp only [bpeLearn]
  rw [c7 ord, d7 ord', C24_cube_free_partial hord hord' hC c5 c3.indexed c3.distinct c6 hcube]

/-- the lines "abc ab" and "abc a" in both orders: the characters a, b, c occur 4, 3 and 2 times -/
example : bpeLearn ordId accExact [lit "abc ab", lit "abc a"] 12 1 none 1 = bpeLearn ordRev accExact [lit "abc a", lit "abc ab"] 12 1 none 1 ∧
    (outcome (bpeLearn ordRev accExact [lit "abc a", lit "abc ab"] 12 1 none 1)).toOption.map (fun v => v.drop 6) =
      some [(lit "a", 4), (lit "b", 3), (lit "c", 2), (lit "ab", 3), (lit "c▁", 2), (lit "abc▁", 2)] := by decide +kernel
/-- words of different frequencies -/
example : learnRaw accExact .word [lit "a b", lit "b"] 0 1 none = learnRaw accExact .word [lit "b", lit "a b"] 0 1 none ∧
    (outcome (learnRaw accExact .word [lit "a b", lit "b"] 0 1 none)).toOption.map (fun v => v.drop 6) = some [(lit "b", 2), (lit "a", 1)] := by
  decide

end Verif
