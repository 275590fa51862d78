import Verif.Lemmas.BpeIndex
import Verif.Lemmas.BpeText
import Verif.Lemmas.BpeRun
import Verif.Props.Codec
/-!
# Properties C20-C25, C27 (and C19 for bpe): learning BPE vocabularies

`ord` is the iteration order of the internal hash sets: any function that returns permutations, possibly a different one in
every round.
-/

namespace Verif
open Spec

/-! ## Example corpora -/

/-- a table of one-character names, as made by the tests of the repository -/
def exChars (names : List String) : List Ty :=
  names.zipIdx.map fun p => { name := lit p.1, level := 1, idx := p.2, freq := 0, kids := [] }

/-- set order: as inserted -/
def ordId : Nat → List Nat → List Nat := fun _ l => l
/-- set order: reversed -/
def ordRev : Nat → List Nat → List Nat := fun _ l => l.reverse

theorem ordId_perm : ∀ i l, (ordId i l).Perm l := fun _ _ => List.Perm.refl _
theorem ordRev_perm : ∀ i l, (ordRev i l).Perm l := fun _ l => List.reverse_perm l

/-- names and frequencies of a result -/
def outcome (r : Py (List Ty)) : Except Exc (List (Str × Int)) := match r with
  | .error e => .error e
  | .ok v => .ok (v.map fun t => (t.name, t.freq))

/-! ## C20 -/

/-- C20: whatever is learned comes from rounds that replace the most frequent pair (smallest on ties, frequency at least the
threshold) and record its exact frequency; learning stops after `n` rounds or when the best pair is too rare. -/
theorem C20_merges {ord : Nat → List Nat → List Nat} (hord : ∀ i l, (ord i l).Perm l) {minEv level : Int} {n : Nat}
    {seqs : Corpus} {vocab v' : List Ty} (hs : ∀ s ∈ seqs, s.1 ≠ [] ∧ 0 < s.2) (hidx : Indexed vocab)
    (hnames : (names vocab).Nodup) (hcodes : ∀ s ∈ seqs, ∀ c ∈ s.1, c < vocab.length)
    (h : learnCodes ord seqs vocab n minEv level = .ok v') :
    ∃ k C', k ≤ n ∧ Run minEv level seqs vocab k C' v' ∧ (k = n ∨ ∃ p, IsBest C' p ∧ pairCount C' p < minEv) := by
  by_cases hne : seqs = []
  · subst hne
    obtain ⟨e, he⟩ := learnCodes_nil ord vocab n minEv level
    rw [he] at h; cases h
  rcases learnCodes_spec hord minEv level n hne hs (fun i t ht => hidx i t ht) hnames hcodes with ⟨v2, k, C', h1, h2⟩ | ⟨k, C', v2, h1, _⟩
  · rw [h1] at h; cases h
    exact ⟨k, C', h2⟩
  · rw [h1] at h; cases h

/-- two words "abab" and "cab": the merges are (a, b) with count 3·2 + 2·1 = 8, then (ab, ab) with count 3 -/
example : outcome (learnCodes ordRev [([0, 1, 0, 1], 3), ([2, 0, 1], 2)] (exChars ["a", "b", "c"]) 2 2 1) =
    .ok [(lit "a", 0), (lit "b", 0), (lit "c", 0), (lit "ab", 8), (lit "abab", 3)] := by decide +kernel
/-- with three rounds the third pair (c, ab), count 2, is learned; the threshold 3 stops after two -/
example : outcome (learnCodes ordId [([0, 1, 0, 1], 3), ([2, 0, 1], 2)] (exChars ["a", "b", "c"]) 3 3 1) =
    .ok [(lit "a", 0), (lit "b", 0), (lit "c", 0), (lit "ab", 8), (lit "abab", 3)] := by decide +kernel
/-- overlapping occurrences: "aaaa" has three pairs (a, a) and two of them are replaced -/
example : outcome (learnCodes ordRev [([0, 0, 0, 0], 1)] (exChars ["a"]) 2 1 1) =
    .ok [(lit "a", 0), (lit "aa", 3), (lit "aaaa", 1)] := by decide +kernel

/-- the size used for learning: no limit (`sys.maxsize`) when a threshold is given instead of a size -/
def effSize (vocabSize minEv : Int) : Int := if 1 < minEv ∧ vocabSize ≤ 1 then 2 ^ 63 - 1 else vocabSize

theorem codeOf_unique {v : List Ty} (hn : (names v).Nodup) {c i j : Nat} (h1 : CodeOf v c i) (h2 : CodeOf v c j) : i = j := by
  have hin : ∀ {i : Nat} {t : Ty}, v[i]? = some t → (names v)[i]? = some t.name := fun h => by
    rw [names, List.getElem?_map, h]; rfl
  rcases h1 with ⟨t, a1, a2⟩ | ⟨a1, a2⟩ <;> rcases h2 with ⟨u, b1, b2⟩ | ⟨b1, b2⟩
  · have e1 := hin a1
    have e2 := hin b1
    rw [a2] at e1
    rw [b2] at e2
    obtain ⟨l1, g1⟩ := List.getElem?_eq_some_iff.1 e1
    obtain ⟨l2, g2⟩ := List.getElem?_eq_some_iff.1 e2
    exact (List.Nodup.getElem_inj_iff hn).1 (g1.trans g2.symm)
  · exact absurd (a2 ▸ List.mem_of_getElem? (hin a1)) b1
  · exact absurd (b2 ▸ List.mem_of_getElem? (hin b1)) a1
  · rw [a2, b2]

theorem codedWords_unique {v : List Ty} (hn : (names v).Nodup) {tf : List (Str × Int)} {C C' : Corpus}
    (h1 : List.Forall₂ (CodedWord v) tf C) (h2 : List.Forall₂ (CodedWord v) tf C') : C = C' := by
  have hu : ∀ {w : Str} {s s' : List Nat}, List.Forall₂ (CodeOf v) w s → List.Forall₂ (CodeOf v) w s' → s = s' := by
    intro w s s' h
    induction h generalizing s' with
    | nil => intro h; cases h; rfl
    | cons a _ ih => intro h; cases h with | cons b h => rw [codeOf_unique hn a b, ih h]
  induction h1 generalizing C' with
  | nil => cases h2; rfl
  | cons a _ ih =>
    cases h2 with
    | cons b h =>
      rw [ih h]
      congr 1
      exact Prod.ext (hu a.2 b.2) (a.1.trans b.1.symm)

/-- `BPEScheme.learn` on term frequencies, by cases; the initial table and the coded words depend neither on the order of sets nor
on the size and the threshold -/
theorem bpeLearnTf_every {A : Acc} {tf : Dict Str Int} (hnd : (Dict.keys tf).Nodup)
    (hpos : ∀ p ∈ tf, 1 ≤ p.2) (hw : ∀ p ∈ tf, p.1 ≠ []) {lc : Int} {cov : Option A.F}
    (hv : ∀ c, cov = some c → A.valid c = true) :
    ∃ cf v0 C, (Dict.keys cf).Nodup ∧ (∀ n f, (n, f) ∈ cf ↔ ∃ c, n = [c] ∧ f = chCount tf c ∧ 0 < f) ∧
      VocabContract Level.char 1 cf v0 ∧
      List.Forall₂ (CodedWord v0) tf C ∧ (∀ s ∈ C, s.1 ≠ [] ∧ 0 < s.2) ∧ (∀ s ∈ C, ∀ c ∈ s.1, c < v0.length) ∧
      getInitVocab A Level.char cf cov (some lc) 1 (-1) = .ok v0 ∧
      ∀ ord vs mf minEv, bpeLearnTf ord A tf lc vs mf cov minEv = if (v0.length : Int) < effSize vs minEv then
        learnCodes ord C v0 (effSize vs minEv - v0.length).toNat minEv Level.subword else .error .assertion := by
  obtain ⟨hcnd, hcmem⟩ := charFreqs_spec hpos
  generalize hcf : charFreqs (tf.map fun p => (p.1 ++ [SP], p.2)) = cf at hcnd hcmem
  have hcpos : ∀ p ∈ cf, 1 ≤ p.2 := by
    rintro ⟨n, f⟩ hp
    obtain ⟨c, _, _, h⟩ := (hcmem n f).1 hp
    exact h
  have hex : ∃ v0, getInitVocab A Level.char cf cov (some lc) 1 (-1) = .ok v0 := by
    simp only [getInitVocab]
    cases cov with
    | none => exact ⟨_, rfl⟩
    | some c =>
      obtain ⟨kept, rest, hf, _⟩ := C17_prefix_partial A (nodup_popReserved hcnd)
        (fun p hp => hcpos p ((popReserved_sublist cf).subset hp)) (hv c rfl)
      simp only [hf]; exact ⟨_, rfl⟩
  obtain ⟨v0, h0⟩ := hex
  have hcon := C15_contract hcnd hcpos h0
  obtain ⟨C, c1, c2, c3, _⟩ := learnSubwords_eq hnd hpos hw (vs := 1) (minEv := 1) hcf.symm
    (init := fun cf => getInitVocab A Level.char cf cov (some lc) 1 (-1)) h0 hcon (by decide)
  refine ⟨cf, v0, C, hcnd, hcmem, hcon, c1, c2, c3, h0, fun ord vs mf minEv => ?_⟩
  by_cases hvs : 0 < effSize vs minEv
  · obtain ⟨C', d1, d2, d3, d4⟩ := learnSubwords_eq hnd hpos hw (vs := effSize vs minEv) (minEv := minEv) hcf.symm
      (init := fun cf => getInitVocab A Level.char cf cov (some lc) 1 (-1)) h0 hcon hvs
    rw [codedWords_unique hcon.distinct c1 d1, ← d4]
    simp only [bpeLearnTf]
    rw [if_neg]
    · rfl
    · exact not_not.2 hvs
  · rw [if_neg (by omega)]
    simp only [bpeLearnTf]
    rw [if_pos]
    exact hvs

/-- `BPEScheme.learn` on term frequencies, by cases; the coded words do not depend on the order of sets -/
theorem bpeLearnTf_all {A : Acc} {tf : Dict Str Int} (hnd : (Dict.keys tf).Nodup)
    (hpos : ∀ p ∈ tf, 1 ≤ p.2) (hw : ∀ p ∈ tf, p.1 ≠ []) {lc vs mf : Int} {cov : Option A.F}
    (hv : ∀ c, cov = some c → A.valid c = true) {minEv : Int} :
    ∃ cf v0 C, (Dict.keys cf).Nodup ∧ (∀ n f, (n, f) ∈ cf ↔ ∃ c, n = [c] ∧ f = chCount tf c ∧ 0 < f) ∧
      VocabContract Level.char 1 cf v0 ∧
      List.Forall₂ (CodedWord v0) tf C ∧ (∀ s ∈ C, s.1 ≠ [] ∧ 0 < s.2) ∧ (∀ s ∈ C, ∀ c ∈ s.1, c < v0.length) ∧
      getInitVocab A Level.char cf cov (some lc) 1 (-1) = .ok v0 ∧
      ∀ ord, bpeLearnTf ord A tf lc vs mf cov minEv = if (v0.length : Int) < effSize vs minEv then
        learnCodes ord C v0 (effSize vs minEv - v0.length).toNat minEv Level.subword else .error .assertion := by
  obtain ⟨cf, v0, C, h1, h2, h3, h4, h5, h6, h7, h8⟩ := bpeLearnTf_every hnd hpos hw (lc := lc) hv
  exact ⟨cf, v0, C, h1, h2, h3, h4, h5, h6, h7, fun ord => h8 ord vs mf minEv⟩

/-- `BPEScheme.learn` on term frequencies, by cases -/
theorem bpeLearnTf_cases {ord : Nat → List Nat → List Nat} {A : Acc} {tf : Dict Str Int} (hnd : (Dict.keys tf).Nodup)
    (hpos : ∀ p ∈ tf, 1 ≤ p.2) (hw : ∀ p ∈ tf, p.1 ≠ []) {lc vs mf : Int} {cov : Option A.F}
    (hv : ∀ c, cov = some c → A.valid c = true) {minEv : Int} :
    ∃ cf v0 C, (Dict.keys cf).Nodup ∧ (∀ n f, (n, f) ∈ cf ↔ ∃ c, n = [c] ∧ f = chCount tf c ∧ 0 < f) ∧
      VocabContract Level.char 1 cf v0 ∧
      List.Forall₂ (CodedWord v0) tf C ∧ (∀ s ∈ C, s.1 ≠ [] ∧ 0 < s.2) ∧ (∀ s ∈ C, ∀ c ∈ s.1, c < v0.length) ∧
      getInitVocab A Level.char cf cov (some lc) 1 (-1) = .ok v0 ∧
      bpeLearnTf ord A tf lc vs mf cov minEv = if (v0.length : Int) < effSize vs minEv then
        learnCodes ord C v0 (effSize vs minEv - v0.length).toNat minEv Level.subword else .error .assertion := by
  obtain ⟨cf, v0, C, h1, h2, h3, h4, h5, h6, h7, h8⟩ := bpeLearnTf_all hnd hpos hw (lc := lc) (vs := vs) (mf := mf) (minEv := minEv) hv
  exact ⟨cf, v0, C, h1, h2, h3, h4, h5, h6, h7, h8 ord⟩

/-- learning from word counts is a run of merges -/
theorem bpeTf_runs {ord : Nat → List Nat → List Nat} (hord : ∀ i l, (ord i l).Perm l) {A : Acc} {tf : Dict Str Int} (t1 : (Dict.keys tf).Nodup)
    (t2 : ∀ p ∈ tf, 1 ≤ p.2) (t3 : ∀ p ∈ tf, p.1 ≠ []) {lc vs mf : Int} {cov : Option A.F} {minEv : Int} {vocab : List Ty}
    (hv : ∀ c, cov = some c → A.valid c = true) (h : bpeLearnTf ord A tf lc vs mf cov minEv = .ok vocab) :
    ∃ (cf : List (Str × Int)) (v0 : List Ty) (C : Corpus) (k : Nat) (C' : Corpus),
      (∀ n f, (n, f) ∈ cf ↔ ∃ c, n = [c] ∧ f = chCount tf c ∧ 0 < f) ∧ VocabContract Level.char 1 cf v0 ∧
      List.Forall₂ (CodedWord v0) tf C ∧ Run minEv Level.subword C v0 k C' vocab ∧
      ((vocab.length : Int) = effSize vs minEv ∨ ∃ p, IsBest C' p ∧ pairCount C' p < minEv) := by
  obtain ⟨cf, v0, C, c1, c2, c3, c4, c5, c6, _, c7⟩ := bpeLearnTf_cases (ord := ord) t1 t2 t3 (lc := lc)
    (vs := vs) (mf := mf) (minEv := minEv) hv
  rw [c7] at h
  split at h
  · rename_i hlt
    obtain ⟨k, C', hk, hrun, hstop⟩ := C20_merges hord c5 c3.indexed c3.distinct c6 h
    refine ⟨cf, v0, C, k, C', c2, c3, c4, hrun, ?_⟩
    rcases hstop with rfl | h
    · left
      obtain ⟨new, e, hl, _⟩ := hrun.shape
      rw [e, List.length_append, hl]
      omega
    · exact Or.inr h
  · cases h

/-- C20, from text to vocabulary: the words are the whitespace-separated tokens with their counts, each ended by U+2581; the
initial symbols are the characters with their counts; the rest of the table comes from a run of most-frequent-pair merges which
stops at the requested size or when the best pair is rarer than the threshold. -/
theorem C20_text {ord : Nat → List Nat → List Nat} (hord : ∀ i l, (ord i l).Perm l) {A : Acc} {data : List Str}
    {vs mf : Int} {cov : Option A.F} {minEv : Int} {vocab : List Ty} {toks : List (List Str)}
    (ht : List.Forall₂ Tokens data toks) (hv : ∀ c, cov = some c → A.valid c = true)
    (h : bpeLearn ord A data vs mf cov minEv = .ok vocab) :
    ∃ (tf cf : List (Str × Int)) (v0 : List Ty) (C : Corpus) (k : Nat) (C' : Corpus),
      (∀ n f, (n, f) ∈ tf ↔ n ∈ toks.flatten ∧ f = toks.flatten.count n) ∧ (tf.map (·.1)).Nodup ∧
      (∀ n f, (n, f) ∈ cf ↔ ∃ c, n = [c] ∧ f = chCount tf c ∧ 0 < f) ∧ VocabContract Level.char 1 cf v0 ∧
      List.Forall₂ (CodedWord v0) tf C ∧ Run minEv Level.subword C v0 k C' vocab ∧
      ((vocab.length : Int) = effSize vs minEv ∨ ∃ p, IsBest C' p ∧ pairCount C' p < minEv) := by
  obtain ⟨t1, t2, t3⟩ := termFrequencies_word data
  obtain ⟨cf, v0, C, k, C', c2, c3, c4, c5, c6⟩ := bpeTf_runs (mf := mf) hord t1 t2 t3 hv h
  refine ⟨_, cf, v0, C, k, C', ?_, t1, c2, c3, c4, c5, c6⟩
  intro n f
  rw [C15_counts data toks ht (k := .word) (Or.inl rfl)]
  simp only [if_true]
  rw [show toks.flatMap (fun ws => ws) = toks.flatten from List.flatMap_id]

/-- the word "ab" twice and "abc" once, with threshold 2 -/
example : outcome (bpeLearn ordId accExact [lit "ab abc", lit " ab"] 0 1 none 2) =
    .ok [(lit "<pad>", -1), (lit "<unk>", -1), (lit "<s>", 2), (lit "</s>", 2), (lit "<cls>", 2), ([SP], 3),
      (lit "a", 3), (lit "b", 3), (lit "c", 1), (lit "ab", 3), (lit "ab▁", 2)] := by decide +kernel
example : List.Forall₂ Tokens [lit "ab abc", lit " ab"] [[lit "ab", lit "abc"], [lit "ab"]] := by
  have h1 : split (lit "ab abc") = [lit "ab", lit "abc"] := by decide
  have h2 : split (lit " ab") = [lit "ab"] := by decide
  exact .cons (h1 ▸ tokens_split _) (.cons (h2 ▸ tokens_split _) .nil)

/-! ## C21 -/

/-- C21: for a non-empty corpus of non-empty sequences with positive frequencies, index creation, validation and merging never
raise anything but the IndexError of the empty heap, which happens only when no pair is left. -/
theorem C21_no_internal_error {ord : Nat → List Nat → List Nat} (hord : ∀ i l, (ord i l).Perm l) (minEv level : Int) (n : Nat)
    {seqs : Corpus} {vocab : List Ty} (hne : seqs ≠ []) (hs : ∀ s ∈ seqs, s.1 ≠ [] ∧ 0 < s.2) (hidx : Indexed vocab)
    (hnames : (names vocab).Nodup) (hcodes : ∀ s ∈ seqs, ∀ c ∈ s.1, c < vocab.length) :
    (∃ v', learnCodes ord seqs vocab n minEv level = .ok v') ∨
    (learnCodes ord seqs vocab n minEv level = .error .index ∧
      ∃ k C' v', k < n ∧ Run minEv level seqs vocab k C' v' ∧ ∀ s ∈ C', ∃ c, s.1 = [c]) := by
  rcases learnCodes_spec hord minEv level n hne hs (fun i t ht => hidx i t ht) hnames hcodes with ⟨v2, k, C', h1, h2⟩ |
    ⟨k, C', v2, h1, h2, h3, h4⟩
  · exact Or.inl ⟨v2, h1⟩
  · exact Or.inr ⟨h1, k, C', v2, h2, h3, single_of_no_pairs (h3.wf hs hcodes).1 h4⟩

example : (∀ s ∈ ([([0, 1, 0, 1], 3), ([2, 0, 1], 2)] : Corpus), s.1 ≠ [] ∧ 0 < s.2) ∧ (names (exChars ["a", "b", "c"])).Nodup ∧
    (∀ s ∈ ([([0, 1, 0, 1], 3), ([2, 0, 1], 2)] : Corpus), ∀ c ∈ s.1, c < (exChars ["a", "b", "c"]).length) := by decide
/-- the overlapping pattern x a a a a y, visited in both directions -/
example : (learnCodes ordRev [([1, 0, 0, 0, 0, 2], 1)] (exChars ["a", "x", "y"]) 3 1 1).toOption.isSome = true ∧
    (learnCodes ordId [([1, 0, 0, 0, 0, 2], 1)] (exChars ["a", "x", "y"]) 3 1 1).toOption.isSome = true := by decide +kernel

/-- C21, from text: for every text with at least one token, every option and set order, learning either succeeds, or is refused
because the requested size does not exceed the number of initial types, or runs out of pairs before the requested size is reached
(every word has become one symbol).  The initial types are those of C20.  (A text without tokens always raises.) -/
theorem C21_text {ord : Nat → List Nat → List Nat} (hord : ∀ i l, (ord i l).Perm l) {A : Acc} {data : List Str}
    {vs mf : Int} {cov : Option A.F} {minEv : Int} {toks : List (List Str)} (ht : List.Forall₂ Tokens data toks)
    (hne : toks.flatten ≠ []) (hv : ∀ c, cov = some c → A.valid c = true) :
    ∃ (tf cf : List (Str × Int)) (v0 : List Ty) (C : Corpus),
      (∀ n f, (n, f) ∈ tf ↔ n ∈ toks.flatten ∧ f = toks.flatten.count n) ∧ (tf.map (·.1)).Nodup ∧
      (∀ n f, (n, f) ∈ cf ↔ ∃ c, n = [c] ∧ f = chCount tf c ∧ 0 < f) ∧ VocabContract Level.char 1 cf v0 ∧
      List.Forall₂ (CodedWord v0) tf C ∧
      ((∃ vocab, bpeLearn ord A data vs mf cov minEv = .ok vocab ∧ (v0.length : Int) < effSize vs minEv) ∨
       (bpeLearn ord A data vs mf cov minEv = .error .assertion ∧ effSize vs minEv ≤ v0.length) ∨
       (bpeLearn ord A data vs mf cov minEv = .error .index ∧ ∃ k C' v', Run minEv Level.subword C v0 k C' v' ∧
          (v'.length : Int) < effSize vs minEv ∧ ∀ s ∈ C', ∃ c, s.1 = [c])) := by
  obtain ⟨t1, t2, t3⟩ := termFrequencies_word data
  obtain ⟨cf, v0, C, c1, c2, c3, c4, c5, c6, c0, c7⟩ := bpeLearnTf_cases (ord := ord) t1 t2 t3 (lc := (termFrequencies .word data).2)
    (vs := vs) (mf := mf) (minEv := minEv) hv
  have hcount : ∀ n f, (n, f) ∈ (termFrequencies .word data).1 ↔ n ∈ toks.flatten ∧ f = toks.flatten.count n := by
    intro n f
    rw [C15_counts data toks ht (k := .word) (Or.inl rfl)]
    simp only [if_true]
    rw [show toks.flatMap (fun ws => ws) = toks.flatten from List.flatMap_id]
  have hC : C ≠ [] := by
    rintro rfl
    have hl := c4.length_eq
    obtain ⟨w, hw⟩ := List.exists_mem_of_ne_nil _ hne
    have := (hcount w _).2 ⟨hw, rfl⟩
    rw [List.length_nil] at hl
    rw [List.eq_nil_of_length_eq_zero hl] at this
    exact absurd this (by simp)
  refine ⟨_, cf, v0, C, hcount, t1, c2, c3, c4, ?_⟩
  simp only [bpeLearn]
  rw [c7]
  split
  · rename_i hlt
    rcases C21_no_internal_error hord minEv Level.subword (effSize vs minEv - v0.length).toNat hC c5 c3.indexed c3.distinct c6 with
      ⟨v', h⟩ | ⟨h, k, C', v', hk, hrun, hs⟩
    · exact Or.inl ⟨v', h, hlt⟩
    · refine Or.inr (Or.inr ⟨h, k, C', v', hrun, ?_, hs⟩)
      obtain ⟨new, e, hl, _⟩ := hrun.shape
      rw [e, List.length_append, hl]
      omega
  · exact Or.inr (Or.inl ⟨rfl, by omega⟩)

/-- all pairs used up before the requested size; the requested size too small -/
example : outcome (bpeLearn ordId accExact [lit "ab ab"] 20 1 none 2) = .error .index ∧
    outcome (bpeLearn ordId accExact [lit "ab ab"] 8 1 none 2) = .error .assertion := by decide +kernel

/-- C21 needs a token: on a text without tokens learning raises for every option and set order: ValueError (`max` of an empty sequence in the
index validation) if the requested size exceeds the six reserved types, AssertionError otherwise. -/
theorem C21_empty_text_raises (ord : Nat → List Nat → List Nat) {A : Acc} {data : List Str} {toks : List (List Str)} (ht : List.Forall₂ Tokens data toks)
    (he : toks.flatten = []) {cov : Option A.F} (hv : ∀ c, cov = some c → A.valid c = true) (vs mf minEv : Int) :
    bpeLearn ord A data vs mf cov minEv = if 6 < effSize vs minEv then .error .value else .error .assertion := by
  obtain ⟨t1, t2, t3⟩ := termFrequencies_word data
  obtain ⟨cf, v0, C, c1, c2, c3, c4, c5, c6, c0, c7⟩ := bpeLearnTf_cases (ord := ord) t1 t2 t3 (lc := (termFrequencies .word data).2)
    (vs := vs) (mf := mf) (minEv := minEv) hv
  have htf : (termFrequencies .word data).1 = [] := by
    rw [List.eq_nil_iff_forall_not_mem]
    rintro ⟨n, f⟩ hn
    rw [C15_counts data toks ht (k := .word) (Or.inl rfl)] at hn
    simp only [if_true] at hn
    rw [show toks.flatMap (fun ws => ws) = toks.flatten from List.flatMap_id, he] at hn
    exact absurd hn.1 (by simp)
  rw [htf] at c4 c2
  cases c4
  have hcf : cf = [] := by
    rw [List.eq_nil_iff_forall_not_mem]
    rintro ⟨n, f⟩ hn
    obtain ⟨c, -, e, h0⟩ := (c2 n f).1 hn
    rw [e] at h0
    exact absurd h0 (by simp [chCount])
  have hd : v0.drop 6 = [] := by
    rw [List.eq_nil_iff_forall_not_mem]
    intro t h
    have := (c3.counted t h).1
    rw [hcf] at this
    exact absurd this (by simp)
  have hl : v0.length = 6 := by
    have h1 := congrArg List.length c3.reserved
    have h2 := congrArg List.length hd
    simp only [List.length_map, List.length_take, List.length_drop, List.length_cons, List.length_nil] at h1 h2
    omega
  simp only [bpeLearn]
  rw [c7, hl]
  split
  · rename_i hlt
    rw [if_pos (by simpa using hlt)]
    have hck := checkIdx_ok v0 0 (fun i t ht => by rw [Nat.zero_add]; exact c3.indexed i t ht)
    have hvi : v0.map (·.idx) = List.range v0.length := by
      apply List.ext_getElem
      · simp
      · intro i h1 h2
        simp only [List.getElem_map, List.getElem_range]
        simp at h1
        exact c3.indexed i _ (List.getElem?_eq_getElem h1)
    have hd1 : (v0.map (·.idx)).dedup.length = (v0.map (·.name)).dedup.length := by
      rw [List.dedup_eq_self.2 (show (v0.map (·.name)).Nodup from c3.distinct), hvi, List.dedup_eq_self.2 List.nodup_range]; simp
    simp [learnCodes, bpeInit, hck, hd1, createIndex, validateIndex, pyMax, Dict.keys]
  · rename_i hlt
    rw [if_neg (by simpa using hlt)]

/-- no tokens at all, and a size that leaves no room -/
example : bpeLearn ordId accExact [lit " "] 0 1 none 2 = .error .value ∧ bpeLearn ordId accExact [] 6 1 none 2 = .error .assertion := by
  decide +kernel

/-! ## C22 -/

/-- C22: the learned table extends the initial one by at most `n` types; each new type sits at its own index, has the level
asked for, and is named by the concatenation of its two kids, which are earlier entries of the table. -/
theorem C22_well_formed {ord : Nat → List Nat → List Nat} (hord : ∀ i l, (ord i l).Perm l) {minEv level : Int} {n : Nat}
    {seqs : Corpus} {vocab v' : List Ty} (hs : ∀ s ∈ seqs, s.1 ≠ [] ∧ 0 < s.2) (hidx : Indexed vocab)
    (hnames : (names vocab).Nodup) (hcodes : ∀ s ∈ seqs, ∀ c ∈ s.1, c < vocab.length)
    (h : learnCodes ord seqs vocab n minEv level = .ok v') :
    v'.take vocab.length = vocab ∧ v'.length ≤ vocab.length + n ∧ Indexed v' ∧
    ∀ (i : Nat) (t : Ty), vocab.length ≤ i → v'[i]? = some t → t.level = level ∧
      ∃ ja jb ta tb, ja < i ∧ jb < i ∧ v'[ja]? = some ta ∧ v'[jb]? = some tb ∧ t.kids = [ta, tb] ∧ t.name = ta.name ++ tb.name := by
  obtain ⟨k, C', hk, hrun, _⟩ := C20_merges hord hs hidx hnames hcodes h
  obtain ⟨new, e, hl, hn⟩ := hrun.shape
  have hnew : ∀ (i : Nat) (t : Ty), vocab.length ≤ i → v'[i]? = some t → new[i - vocab.length]? = some t := by
    intro i t hi ht
    rw [e, List.getElem?_append_right hi] at ht; exact ht
  refine ⟨by rw [e, List.take_left], by rw [e, List.length_append]; omega, ?_, ?_⟩
  · intro i t ht
    by_cases hi : i < vocab.length
    · rw [e, List.getElem?_append_left hi] at ht
      exact hidx i t ht
    · have := (hn _ _ (hnew i t (by omega) ht)).1
      omega
  · intro i t hi ht
    obtain ⟨h1, h2, _, _, ja, jb, ta, tb, g1, g2, g3⟩ := hn _ _ (hnew i t hi ht)
    exact ⟨h2, ja, jb, ta, tb, by omega, by omega, g3⟩

theorem chCount_pos {tf : List (Str × Int)} {c : Nat} (h : 0 < chCount tf c) : c = 0x2581 ∨ ∃ p ∈ tf, c ∈ p.1 := by
  induction tf with
  | nil => simp [chCount] at h
  | cons p tf ih =>
    by_cases hc : c ∈ p.1
    · exact .inr ⟨p, by simp, hc⟩
    by_cases hs : c = 0x2581
    · exact .inl hs
    have h1 : c ∉ p.1 ++ [SP] := by simp [hc, SP, hs]
    rw [chCount_cons, List.count_eq_zero_of_not_mem h1] at h
    rcases ih (by simpa using h) with h | ⟨q, hq, hc⟩
    · exact .inl h
    · exact .inr ⟨q, by simp [hq], hc⟩

/-- the table learned from term frequencies -/
theorem bpeTf_table {ord : Nat → List Nat → List Nat} (hord : ∀ i l, (ord i l).Perm l) {A : Acc} {tf : Dict Str Int}
    (t1 : (Dict.keys tf).Nodup) (t2 : ∀ p ∈ tf, 1 ≤ p.2) (t3 : ∀ p ∈ tf, p.1 ≠ []) {lc : Int}
    {vs mf : Int} {cov : Option A.F} {minEv : Int} {vocab : List Ty} (hv : ∀ c, cov = some c → A.valid c = true)
    (h : bpeLearnTf ord A tf lc vs mf cov minEv = .ok vocab) :
    Indexed vocab ∧ (vocab.length : Int) ≤ effSize vs minEv ∧ (names vocab).take 6 = reservedNames ∧ (∀ t ∈ vocab, t.name ≠ []) ∧
    (∀ (i : Nat) (t : Ty), vocab[i]? = some t → t.kids = [] ∨ ∃ ja jb ta tb, ja < i ∧ jb < i ∧ vocab[ja]? = some ta ∧ vocab[jb]? = some tb ∧
      t.kids = [ta, tb] ∧ t.name = ta.name ++ tb.name) ∧
    ∀ t ∈ vocab, ∀ c ∈ t.name, (∃ n ∈ reservedNames, c ∈ n) ∨ ∃ p ∈ tf, c ∈ p.1 := by
  obtain ⟨cf, v0, C, c1, c2, c3, c4, c5, c6, c0, c7⟩ := bpeLearnTf_cases (ord := ord) t1 t2 t3 (lc := lc)
    (vs := vs) (mf := mf) (minEv := minEv) hv
  rw [c7] at h
  split at h
  · rename_i hlt
    obtain ⟨w1, w2, w3, w4⟩ := C22_well_formed hord c5 c3.indexed c3.distinct c6 h
    have hres : (names v0).take 6 = reservedNames := by
      obtain ⟨_, _, kept, _, _, _, _, _, rfl⟩ := getInitVocab_ok c1 c0
      rw [names_reserved_append]; exact List.take_left' rfl
    have h6 : 6 ≤ v0.length := by
      have := congrArg List.length hres
      simp [names, reservedNames] at this
      omega
    have hv1 : ∀ t ∈ v0, ∀ c ∈ t.name, (∃ n ∈ reservedNames, c ∈ n) ∨ ∃ p ∈ tf, c ∈ p.1 := by
      intro t ht c hc
      rw [← List.take_append_drop 6 v0] at ht
      rcases List.mem_append.1 ht with ht | ht
      · left
        have : t.name ∈ (names v0).take 6 := by
          rw [names, ← List.map_take]; exact List.mem_map.2 ⟨t, ht, rfl⟩
        rw [hres] at this
        exact ⟨_, this, hc⟩
      · obtain ⟨g1, _, g3⟩ := c3.counted t ht
        obtain ⟨ch, hch, hf, hp⟩ := (c2 _ _).1 g1
        rw [hch, List.mem_singleton] at hc
        subst hc
        rcases chCount_pos (hf ▸ hp) with h | h
        · left; exact ⟨[0x2581], by decide, by simp [h]⟩
        · exact .inr h
    have hv0 : ∀ t ∈ v0, t.name ≠ [] ∧ t.kids = [] := by
      intro t ht
      rw [← List.take_append_drop 6 v0] at ht
      rcases List.mem_append.1 ht with ht | ht
      · have h1 : (t.name, t.level, t.kids) ∈ (v0.take 6).map (fun t => (t.name, t.level, t.kids)) := List.mem_map.2 ⟨t, ht, rfl⟩
        rw [c3.reserved] at h1
        have h2 : ∀ x ∈ ([(lit "<pad>", -1, []), (lit "<unk>", -1, []), (lit "<s>", -1, []), (lit "</s>", -1, []),
          (lit "<cls>", -1, []), ([0x2581], -1, [])] : List (Str × Int × List Ty)), x.1 ≠ [] ∧ x.2.2 = [] := by decide
        exact h2 _ h1
      · obtain ⟨g1, _, g3⟩ := c3.counted t ht
        obtain ⟨c, hc, _⟩ := (c2 _ _).1 g1
        exact ⟨by rw [hc]; simp, g3⟩
    have hall : ∀ (i : Nat) (t : Ty), vocab[i]? = some t → (t.kids = [] ∧ t.name ≠ []) ∨ ∃ ja jb ta tb, ja < i ∧ jb < i ∧ vocab[ja]? = some ta ∧
        vocab[jb]? = some tb ∧ t.kids = [ta, tb] ∧ t.name = ta.name ++ tb.name := by
      intro i t ht
      by_cases hi : i < v0.length
      · left
        have hm : t ∈ v0 := by
          rw [← w1]
          exact List.mem_of_getElem? (by rw [List.getElem?_take_of_lt hi]; exact ht)
        exact ⟨(hv0 t hm).2, (hv0 t hm).1⟩
      · right
        exact (w4 i t (by omega) ht).2
    have hname : ∀ (i : Nat) (t : Ty), vocab[i]? = some t → t.name ≠ [] := by
      intro i
      induction i using Nat.strong_induction_on with
      | _ i ih =>
        intro t ht
        rcases hall i t ht with h | ⟨ja, jb, ta, tb, g1, g2, g3, g4, g5, g6⟩
        · exact h.2
        · rw [g6]
          have := ih ja g1 ta g3
          simp [this]
    have hchar : ∀ (i : Nat) (t : Ty), vocab[i]? = some t → ∀ c ∈ t.name, (∃ n ∈ reservedNames, c ∈ n) ∨ ∃ p ∈ tf, c ∈ p.1 := by
      intro i
      induction i using Nat.strong_induction_on with
      | _ i ih =>
        intro t ht c hc
        by_cases hi : i < v0.length
        · have hm : t ∈ v0 := by
            rw [← w1]
            exact List.mem_of_getElem? (by rw [List.getElem?_take_of_lt hi]; exact ht)
          exact hv1 t hm c hc
        · obtain ⟨_, ja, jb, ta, tb, g1, g2, g3, g4, g5, g6⟩ := w4 i t (by omega) ht
          rw [g6] at hc
          rcases List.mem_append.1 hc with hc | hc
          · exact ih ja g1 ta g3 c hc
          · exact ih jb g2 tb g4 c hc
    refine ⟨w3, ?_, ?_, ?_, fun i t ht => (hall i t ht).imp And.left id, fun t ht => ?_⟩
    · omega
    · rw [← hres, ← w1]
      simp only [names, List.map_take, List.take_take]
      rw [Nat.min_eq_left h6]
    · intro t ht
      obtain ⟨i, hi⟩ := List.mem_iff_getElem?.1 ht
      exact hname i t hi
    · obtain ⟨i, hi⟩ := List.mem_iff_getElem?.1 ht
      exact hchar i t hi
  · cases h

/-- C22, from text: well formed, with the six reserved types first, and never larger than the requested size. -/
theorem C22_text {ord : Nat → List Nat → List Nat} (hord : ∀ i l, (ord i l).Perm l) {A : Acc} {data : List Str}
    {vs mf : Int} {cov : Option A.F} {minEv : Int} {vocab : List Ty} (hv : ∀ c, cov = some c → A.valid c = true)
    (h : bpeLearn ord A data vs mf cov minEv = .ok vocab) :
    Indexed vocab ∧ (vocab.length : Int) ≤ effSize vs minEv ∧ (names vocab).take 6 = reservedNames ∧ (∀ t ∈ vocab, t.name ≠ []) ∧
    ∀ (i : Nat) (t : Ty), vocab[i]? = some t → t.kids = [] ∨ ∃ ja jb ta tb, ja < i ∧ jb < i ∧ vocab[ja]? = some ta ∧ vocab[jb]? = some tb ∧
      t.kids = [ta, tb] ∧ t.name = ta.name ++ tb.name := by
  obtain ⟨t1, t2, t3⟩ := termFrequencies_word data
  obtain ⟨h1, h2, h3, h4, h5, _⟩ := bpeTf_table (mf := mf) hord t1 t2 t3 hv h
  exact ⟨h1, h2, h3, h4, h5⟩

/-- C19 for bpe: every learned BPE table is accepted by the BPE scheme's constructor. -/
theorem C19_bpe_accepted {ord : Nat → List Nat → List Nat} (hord : ∀ i l, (ord i l).Perm l) {A : Acc} {data : List Str}
    {vs mf : Int} {cov : Option A.F} {minEv : Int} {vocab : List Ty} (hv : ∀ c, cov = some c → A.valid c = true)
    (h : bpeLearn ord A data vs mf cov minEv = .ok vocab) : ∃ s, Scheme.make .bpe vocab = .ok s ∧ s.table = vocab := by
  obtain ⟨_, _, h3, h4, _⟩ := C22_text hord hv h
  have h1 := validateReserved_of_names h3
  have h2 : (buildTrie vocab).data = none := by
    have : (buildTrie vocab).lookup [] = lastNamed vocab [] := lookup_buildTrie vocab []
    have h5 : lastNamed vocab [] = none := by
      cases hl : lastNamed vocab [] with
      | none => rfl
      | some t => exact absurd (lastNamed_some hl).2 (h4 t (lastNamed_some hl).1)
    rw [h5] at this
    simpa [Trie.lookup] using this
  exact ⟨_, by simp only [Scheme.make, h1, h2]; rfl, rfl⟩

/-- C04 for learned vocabularies: text whose characters all occur in the learned vocabulary is restored. -/
theorem C04_learned {ord : Nat → List Nat → List Nat} (hord : ∀ i l, (ord i l).Perm l) {A : Acc} {data : List Str}
    {vs mf : Int} {cov : Option A.F} {minEv : Int} {vocab : List Ty} (hv : ∀ c, cov = some c → A.valid c = true)
    (h : bpeLearn ord A data vs mf cov minEv = .ok vocab) {line : Str} {ws : List Str} (hw : Tokens line ws)
    (hc : ∀ w ∈ ws, ∀ c ∈ w, [c] ∈ names vocab ∧ c ≠ SP) :
    ∃ s ids, Scheme.make .bpe vocab = .ok s ∧ s.encode line = .ok ids ∧ s.decode ids = .ok (List.intercalate [32] ws) := by
  obtain ⟨s, hs, _⟩ := C19_bpe_accepted hord hv h
  obtain ⟨ids, h1, h2⟩ := C04_bpe_lossless hs (C22_text hord hv h).1 hw hc
  exact ⟨s, ids, hs, h1, h2⟩

/-! ## C23 -/

/-- C23: the frequencies of successive merges never increase, and reach the threshold. -/
theorem C23_monotone {ord : Nat → List Nat → List Nat} (hord : ∀ i l, (ord i l).Perm l) {minEv level : Int} {n : Nat}
    {seqs : Corpus} {vocab v' : List Ty} (hs : ∀ s ∈ seqs, s.1 ≠ [] ∧ 0 < s.2) (hidx : Indexed vocab)
    (hnames : (names vocab).Nodup) (hcodes : ∀ s ∈ seqs, ∀ c ∈ s.1, c < vocab.length)
    (h : learnCodes ord seqs vocab n minEv level = .ok v') :
    (v'.drop vocab.length).Pairwise (fun a b => b.freq ≤ a.freq) ∧ ∀ t ∈ v'.drop vocab.length, minEv ≤ t.freq ∧ 0 < t.freq := by
  obtain ⟨k, C', hk, hrun, _⟩ := C20_merges hord hs hidx hnames hcodes h
  refine ⟨(hrun.sorted hs hcodes).1, ?_⟩
  obtain ⟨new, e, hl, hn⟩ := hrun.shape
  rw [e, List.drop_left]
  intro t ht
  obtain ⟨i, hi⟩ := List.mem_iff_getElem?.1 ht
  obtain ⟨_, _, h3, h4, _⟩ := hn i t hi
  exact ⟨h3, h4⟩

/-- frequencies 5, 5, 2 -/
example : (learnCodes ordId [([0, 1, 2], 5), ([0, 2], 2)] (exChars ["a", "b", "c"]) 3 2 1).toOption.map
    (fun v => (v.drop 3).map fun t => (t.name, t.freq)) = some [(lit "ab", 5), (lit "abc", 5), (lit "ac", 2)] := by decide +kernel

/-! ## C24 -/

/-- C24, if no learned type has two equal parts: every set iteration order gives the same vocabulary.  Missing: pairs of equal
symbols, for which the claim is false (`C24_refuted`). -/
theorem C24_deterministic_partial {ord ord' : Nat → List Nat → List Nat} (hord : ∀ i l, (ord i l).Perm l)
    (hord' : ∀ i l, (ord' i l).Perm l) {minEv level : Int} {n : Nat}
    {seqs : Corpus} {vocab v' : List Ty} (hs : ∀ s ∈ seqs, s.1 ≠ [] ∧ 0 < s.2) (hidx : Indexed vocab)
    (hnames : (names vocab).Nodup) (hcodes : ∀ s ∈ seqs, ∀ c ∈ s.1, c < vocab.length)
    (h : learnCodes ord seqs vocab n minEv level = .ok v')
    (hd : ∀ t ∈ v'.drop vocab.length, ∀ x y, t.kids = [x, y] → x ≠ y) :
    learnCodes ord' seqs vocab n minEv level = .ok v' := by
  have hne : seqs ≠ [] := by
    rintro rfl
    obtain ⟨e, he⟩ := learnCodes_nil ord vocab n minEv level
    rw [he] at h; cases h
  obtain ⟨k, C', hk, hrun, hstop⟩ := C20_merges hord hs hidx hnames hcodes h
  have hst : k = n ∨ Stuck minEv C' := hstop.imp id Or.inl
  rcases learnCodes_spec hord' minEv level n hne hs (fun i t ht => hidx i t ht) hnames hcodes with ⟨v2, k2, C2, h1, h2, h3, h4⟩ |
    ⟨k2, C2, v2, h1, h2, h3, h4⟩
  · obtain ⟨_, _, rfl⟩ := hrun.det h3 hs hcodes hk h2 hst (h4.imp id Or.inl) hd
    exact h1
  · obtain ⟨rfl, rfl, rfl⟩ := hrun.det h3 hs hcodes hk (le_of_lt h2) hst (Or.inr (Or.inr h4)) hd
    rcases hstop with rfl | ⟨p, hp, _⟩
    · exact absurd h2 (Nat.lt_irrefl _)
    · have := hp.1
      rw [h4 p] at this
      exact absurd this (by decide)

/-- C24 is false in general: on the single word "aaab" the order in which the overlapping pairs (a, a) are visited decides
whether "aab" or "ab" pairs arise, and different vocabularies are learned. -/
theorem C24_refuted : ∃ (seqs : Corpus) (vocab : List Ty) (n : Nat) (v1 v2 : List Ty),
    learnCodes ordId seqs vocab n 1 1 = .ok v1 ∧ learnCodes ordRev seqs vocab n 1 1 = .ok v2 ∧ v1.map (·.name) ≠ v2.map (·.name) := by
  refine ⟨[([0, 0, 0, 1], 1)], exChars ["a", "b"], 2, _, _, rfl, rfl, ?_⟩
  decide +kernel

example : outcome (learnCodes ordId [([0, 0, 0, 1], 1)] (exChars ["a", "b"]) 2 1 1) =
    .ok [(lit "a", 0), (lit "b", 0), (lit "aa", 2), (lit "ab", 1)] := by decide +kernel
example : outcome (learnCodes ordRev [([0, 0, 0, 1], 1)] (exChars ["a", "b"]) 2 1 1) =
    .ok [(lit "a", 0), (lit "b", 0), (lit "aa", 2), (lit "aaa", 1)] := by decide +kernel

/-! ## C25 -/

/-- C25 is false: learning from the text "a a" with threshold 2 raises IndexError (pop from the empty heap) after the only
merge, although that merge reached the threshold. -/
theorem C25_refuted : bpeLearn ordId accExact [lit "a a"] 0 1 none 2 = .error .index := by decide +kernel

/-- the same with a requested size instead of a threshold -/
example : bpeLearn ordId accExact [lit "ab"] 11 1 none 1 = .error .index := by decide +kernel
example : (bpeLearn ordId accExact [lit "ab"] 10 1 none 1).toOption.map List.length = some 10 := by decide +kernel

/-- C25, what holds: learning fails only if every sequence has become a single symbol before the requested number of merges;
so if a pair rarer than the threshold is left whenever merging cannot go on, learning returns the vocabulary learned so far.
Missing: the graceful stop when nothing at all is left (`C25_refuted`). -/
theorem C25_graceful_partial {ord : Nat → List Nat → List Nat} (hord : ∀ i l, (ord i l).Perm l) (minEv level : Int) (n : Nat)
    {seqs : Corpus} {vocab : List Ty} (hne : seqs ≠ []) (hs : ∀ s ∈ seqs, s.1 ≠ [] ∧ 0 < s.2) (hidx : Indexed vocab)
    (hnames : (names vocab).Nodup) (hcodes : ∀ s ∈ seqs, ∀ c ∈ s.1, c < vocab.length)
    (hleft : ∀ k C' v', k < n → Run minEv level seqs vocab k C' v' → ∃ s ∈ C', ∀ c, s.1 ≠ [c]) :
    ∃ v' k C', learnCodes ord seqs vocab n minEv level = .ok v' ∧ k ≤ n ∧ Run minEv level seqs vocab k C' v' := by
  rcases C21_no_internal_error hord minEv level n hne hs hidx hnames hcodes with ⟨v', h⟩ | ⟨_, k, C', v', h1, h2, h3⟩
  · obtain ⟨k, C', h1, h2, _⟩ := C20_merges hord hs hidx hnames hcodes h
    exact ⟨v', k, C', h, h1, h2⟩
  · obtain ⟨s, hs1, hs2⟩ := hleft k C' v' h1 h2
    obtain ⟨c, hc⟩ := h3 s hs1
    exact absurd hc (hs2 c)

/-- the hypothesis of `C25_graceful_partial` is met by one word "ab" seen once with threshold 2 -/
example : ∀ k C' v', k < 5 → Run 2 1 [([0, 1], 1)] (exChars ["a", "b"]) k C' v' → ∃ s ∈ C', ∀ c, s.1 ≠ [c] := by
  intro k C' v' _ h
  cases h with
  | refl => exact ⟨_, List.mem_singleton.2 rfl, by simp⟩
  | @step _ _ _ _ _ _ p _ _ hb hm _ _ _ _ =>
    exfalso
    simp only [pairCount, pairOcc, List.map_cons, List.map_nil, List.sum_cons, List.sum_nil] at hm
    split at hm <;> simp at hm

/-- C25, a sufficient condition: `n` merges never exhaust a corpus that has a sequence of more than `2 ^ (n - 1)` symbols. -/
theorem C25_long_partial {ord : Nat → List Nat → List Nat} (hord : ∀ i l, (ord i l).Perm l) (minEv level : Int) (n : Nat)
    {seqs : Corpus} {vocab : List Ty} (hs : ∀ s ∈ seqs, s.1 ≠ [] ∧ 0 < s.2) (hidx : Indexed vocab)
    (hnames : (names vocab).Nodup) (hcodes : ∀ s ∈ seqs, ∀ c ∈ s.1, c < vocab.length)
    (hlong : ∃ s ∈ seqs, 2 ^ n < 2 * s.1.length) :
    ∃ v', learnCodes ord seqs vocab n minEv level = .ok v' := by
  obtain ⟨s, hsm, hl⟩ := hlong
  have hne : seqs ≠ [] := by rintro rfl; simp at hsm
  rcases C21_no_internal_error hord minEv level n hne hs hidx hnames hcodes with h | ⟨_, k, C', v', h1, h2, h3⟩
  · exact h
  · exfalso
    obtain ⟨t, ht, htl⟩ := h2.length_le ⟨s, hsm, Nat.le_refl _⟩
    obtain ⟨c, hc⟩ := h3 t ht
    rw [hc] at htl
    have : 2 ^ (k + 1) ≤ 2 ^ n := Nat.pow_le_pow_right (by decide) h1
    rw [Nat.pow_succ] at this
    simp at htl
    omega

example : (learnCodes ordId [([0, 1, 0, 2, 1], 1)] (exChars ["a", "b", "c"]) 3 1 1).toOption.map List.length = some 6 := by decide +kernel

/-! ## C27 -/

/-- C27 is false for `min_freq`: at the bpe (and subword) level it never has any effect. -/
theorem C27_min_freq_refuted : (∀ (ord : Nat → List Nat → List Nat) (A : Acc) (data : List Str) (vs mf mf' : Int) (cov : Option A.F)
      (minEv : Int), learnVocab ord A .bpe data vs mf cov minEv = learnVocab ord A .bpe data vs mf' cov minEv) ∧
    ∃ data : List Str, outcome (learnVocab ordId accExact .bpe data 10 100 none 1) =
      .ok [(lit "<pad>", -1), (lit "<unk>", -1), (lit "<s>", 1), (lit "</s>", 1), (lit "<cls>", 1), ([SP], 1), (lit "a", 1),
        (lit "b", 1), (lit "ab", 1), (lit "ab▁", 1)] :=
  ⟨fun _ _ _ _ _ _ _ _ => rfl, [lit "ab"], by decide +kernel⟩

/-- C27 is false for `min_co_ev` at the level called "subword" (documented as the same scheme): the default 95 is used. -/
theorem C27_subword_refuted : (∀ (ord : Nat → List Nat → List Nat) (A : Acc) (data : List Str) (vs mf : Int) (cov : Option A.F)
      (e e' : Int), learnVocab ord A .subword data vs mf cov e = learnVocab ord A .subword data vs mf cov e') ∧
    ∃ data : List Str, learnVocab ordId accExact .subword data 10 1 none 1 ≠ learnVocab ordId accExact .bpe data 10 1 none 1 := by
  refine ⟨fun _ _ _ _ _ _ _ _ => rfl, [lit "ab"], ?_⟩
  intro h
  have := congrArg (fun r => outcome r) h
  revert this
  decide +kernel

theorem termFrequencies_pos (k : Kind) (data : List Str) : ∀ p ∈ (termFrequencies k data).1, 1 ≤ p.2 := by
  rintro ⟨n, f⟩ hp
  rw [termFrequencies_count, mem_count_nil] at hp
  have := List.count_pos_iff.2 hp.1
  simp only [hp.2]; omega

/-- C27, the default of `min_freq` (any value below 1): when no size is given, every word of the corpus is kept at the level
"word"; at the level "char" no type rarer than 20 is kept, and without coverage and size every character that occurs at least 20
times is. -/
theorem C27_default_min_freq (ord : Nat → List Nat → List Nat) (A : Acc) {data : List Str} {toks : List (List Str)}
    (ht : List.Forall₂ Tokens data toks) {mf : Int} (hmf : mf < 1) (cov cov' : Option A.F) (e : Int)
    {wvocab cvocab cvocab' : List Ty} {vs : Int} (hw : learnVocab ord A .word data 0 mf cov e = .ok wvocab)
    (hc : learnVocab ord A .char data vs mf cov' e = .ok cvocab) (hc' : learnVocab ord A .char data 0 mf none e = .ok cvocab') :
    (∀ ws ∈ toks, ∀ w ∈ ws, w ∈ names wvocab) ∧ (∀ t ∈ cvocab.drop 6, 20 ≤ t.freq) ∧
    (∀ c : Nat, 20 ≤ (toks.flatMap fun ws => (List.intercalate [0x2581] ws)).count c → [c] ∈ names cvocab') := by
  have e1 : effMinFreq .word mf = 1 := by simp [effMinFreq, hmf]
  have e2 : effMinFreq .char mf = 20 := by simp [effMinFreq, hmf]
  simp only [learnVocab, learnRaw, e1] at hw
  simp only [learnVocab, learnRaw, e2] at hc hc'
  refine ⟨?_, ?_, ?_⟩
  · intro ws hws w hww
    by_contra hout
    have hmem := (C15_counts data toks ht (k := .word) (Or.inl rfl) w
      ((toks.flatMap fun ws => if (Kind.word = .word) then ws else (List.intercalate [0x2581] ws).map fun c => [c]).count w)).2
      ⟨by simp only [if_true]; exact List.mem_flatMap.2 ⟨ws, hws, hww⟩, rfl⟩
    have h1 := termFrequencies_pos _ _ _ hmem
    rcases C15_complete (termFrequencies_nodup _ _) hw hmem hout with h | h
    · simp only at h h1; omega
    · omega
  · exact (C15_contract (termFrequencies_nodup _ _) (termFrequencies_pos _ _) hc).frequent
  · intro c hcount
    by_contra hout
    have hcc : ∀ l : List Nat, (l.map fun c => [c]).count [c] = l.count c := by
      intro l
      induction l with
      | nil => rfl
      | cons a l ih => simp only [List.map_cons, List.count_cons, ih, beq_iff_eq, List.cons.injEq, and_true]
    have hfl : (toks.flatMap fun ws => (List.intercalate [0x2581] ws).map fun c => [c]) =
        (toks.flatMap fun ws => (List.intercalate [0x2581] ws)).map fun c => [c] := by
      rw [List.map_flatMap]
    have hpos : 0 < (toks.flatMap fun ws => (List.intercalate [0x2581] ws)).count c := by omega
    have hmem := (C15_counts data toks ht (k := .char) (Or.inr rfl) [c]
      ((toks.flatMap fun ws => if (Kind.char = .word) then ws else (List.intercalate [0x2581] ws).map fun c => [c]).count [c])).2
      ⟨by
        simp only [reduceCtorEq, if_false]
        rw [hfl]
        exact List.mem_map.2 ⟨c, List.count_pos_iff.1 hpos, rfl⟩, rfl⟩
    rcases C15_complete (termFrequencies_nodup _ _) hc' hmem hout with h | h
    · simp only [reduceCtorEq, if_false] at h
      rw [hfl, hcc] at h
      omega
    · omega

/-- C27: a `min_freq` of at least 1 is used as given at the levels "word" and "char": no rarer type is kept. -/
theorem C27_given_min_freq (ord : Nat → List Nat → List Nat) (A : Acc) (data : List Str) {mf : Int} (hmf : 1 ≤ mf) (cov : Option A.F) (e : Int)
    {level : LevelName} (hl : level = .word ∨ level = .char) {vocab : List Ty} {vs : Int} (h : learnVocab ord A level data vs mf cov e = .ok vocab) :
    ∀ t ∈ vocab.drop 6, mf ≤ t.freq := by
  have e1 : ∀ l, effMinFreq l mf = mf := by intro l; rw [effMinFreq, if_neg (by omega)]
  rcases hl with rfl | rfl
  · simp only [learnVocab, learnRaw, e1] at h
    exact (C15_contract (termFrequencies_nodup _ _) (termFrequencies_pos _ _) h).frequent
  · simp only [learnVocab, learnRaw, e1] at h
    exact (C15_contract (termFrequencies_nodup _ _) (termFrequencies_pos _ _) h).frequent

example : outcome (learnVocab ordId accExact .word [lit "a b a"] 0 2 none 1) =
    .ok [(lit "<pad>", -1), (lit "<unk>", 1), (lit "<s>", 1), (lit "</s>", 1), (lit "<cls>", 1), ([SP], -1), (lit "a", 2)] := by decide
example : (outcome (learnVocab ordId accExact .word [lit "a b a"] 0 0 none 1)).toOption.map List.length = some 8 ∧
    (outcome (learnVocab ordId accExact .char [lit "a b a"] 0 0 none 1)).toOption.map List.length = some 6 := by decide

/-- C27, what holds: at the level called "bpe", no pair rarer than `min_co_ev` is merged.  Missing: `min_freq`, and the level
called "subword" (`C27_min_freq_refuted`, `C27_subword_refuted`). -/
theorem C27_threshold_partial {ord : Nat → List Nat → List Nat} (hord : ∀ i l, (ord i l).Perm l) {A : Acc} {data : List Str}
    {vs mf : Int} {cov : Option A.F} {minEv : Int} {vocab : List Ty} (hv : ∀ c, cov = some c → A.valid c = true)
    (h : learnVocab ord A .bpe data vs mf cov minEv = .ok vocab) : ∀ t ∈ vocab, t.kids ≠ [] → minEv ≤ t.freq := by
  have h' : bpeLearn ord A data vs (effMinFreq .bpe mf) cov minEv = .ok vocab := h
  obtain ⟨t1, t2, t3⟩ := termFrequencies_word data
  obtain ⟨cf, v0, C, c1, c2, c3, c4, c5, c6, c0, c7⟩ := bpeLearnTf_cases (ord := ord) t1 t2 t3 (lc := (termFrequencies .word data).2)
    (vs := vs) (mf := effMinFreq .bpe mf) (minEv := minEv) hv
  simp only [bpeLearn] at h'
  rw [c7] at h'
  split at h'
  · have h1 := (C23_monotone hord c5 c3.indexed c3.distinct c6 h').2
    have h2 := (C22_well_formed hord c5 c3.indexed c3.distinct c6 h').1
    intro t ht hk
    rw [← List.take_append_drop v0.length vocab] at ht
    rcases List.mem_append.1 ht with ht | ht
    · exfalso
      rw [h2, ← List.take_append_drop 6 v0] at ht
      rcases List.mem_append.1 ht with ht | ht
      · have h3 : (t.name, t.level, t.kids) ∈ (v0.take 6).map (fun t => (t.name, t.level, t.kids)) := List.mem_map.2 ⟨t, ht, rfl⟩
        rw [c3.reserved] at h3
        have h4 : ∀ x ∈ ([(lit "<pad>", -1, []), (lit "<unk>", -1, []), (lit "<s>", -1, []), (lit "</s>", -1, []),
          (lit "<cls>", -1, []), ([0x2581], -1, [])] : List (Str × Int × List Ty)), x.2.2 = [] := by decide
        exact hk (h4 _ h3)
      · exact hk (c3.counted t ht).2.2
    · exact (h1 t ht).1
  · cases h'

/-- C27: the level called "subword" with any `min_co_ev` is the level "bpe" with 95; no pair rarer than that is merged. -/
theorem C27_subword_default {ord : Nat → List Nat → List Nat} (hord : ∀ i l, (ord i l).Perm l) {A : Acc} {data : List Str}
    {vs mf : Int} {cov : Option A.F} {minEv : Int} {vocab : List Ty} (hv : ∀ c, cov = some c → A.valid c = true)
    (h : learnVocab ord A .subword data vs mf cov minEv = .ok vocab) :
    learnVocab ord A .bpe data vs mf cov 95 = .ok vocab ∧ ∀ t ∈ vocab, t.kids ≠ [] → 95 ≤ t.freq :=
  have h' : learnVocab ord A .bpe data vs mf cov 95 = .ok vocab := h
  ⟨h', C27_threshold_partial hord hv h'⟩

/-- a word seen 95 times is merged, one seen 94 times is not -/
example : ((learnVocab ordId accExact .subword (lit "c" :: List.replicate 95 (lit "ab")) 0 1 none 1).map fun v => names (v.drop 6)) =
      .ok [lit "a", lit "b", lit "c", lit "ab", lit "ab▁"] ∧
    ((learnVocab ordId accExact .subword (lit "c" :: List.replicate 94 (lit "ab")) 0 1 none 1).map fun v => names (v.drop 6)) =
      .ok [lit "a", lit "b", lit "c"] := by decide +kernel

/-- C20, `learn_subwords` called with its default size -1: nothing is merged, whatever the evidence required; the table is the one made
from the counts of the characters and of one U+2581 per word. -/
theorem C20_no_size {ord : Nat → List Nat → List Nat} {tf : Dict Str Int} (hnd : (Dict.keys tf).Nodup) (hpos : ∀ p ∈ tf, 1 ≤ p.2)
    (minEv : Int) (init : Dict Str Int → Py (List Ty)) :
    ∃ cf, (Dict.keys cf).Nodup ∧ (∀ n f, (n, f) ∈ cf ↔ ∃ c, n = [c] ∧ f = chCount tf c ∧ 0 < f) ∧
      learnSubwords ord tf (-1) minEv init = init cf := by
  obtain ⟨hcnd, hcmem⟩ := charFreqs_spec hpos
  refine ⟨_, hcnd, hcmem, ?_⟩
  simp only [learnSubwords, preparedFreqs_eq hnd, if_true]
  cases init (charFreqs (tf.map fun p => (p.1 ++ [SP], p.2))) <;> rfl

example : (learnSubwords ordId [(lit "ab", 3)] (-1) 1 fun cf => getInitVocab accExact Level.char cf none none 1 (-1)).map
    (fun v => names (v.drop 6)) = .ok [lit "a", lit "b"] := by decide +kernel

end Verif
