import Verif.Model.LearnCli
import Verif.Props.Spark
import Verif.Props.File
import Verif.Props.BpeLearn
/-!
# Properties C65, C77, C78: learned vocabularies on disk, and `nlcodec-learn`

Text is free of surrogates: files are decoded from UTF-8.
-/

namespace Verif
open Spec

/-- the text of the model file, if saving succeeds -/
def saveTable (J : Json) (k : Kind) (table : List Ty) : Py Str :=
  match Scheme.make k table with
  | .error e => .error e
  | .ok s => s.save J

theorem saveModel_table {J : Json} {k : Kind} {table : List Ty} {model : Option Str} : match saveTable J k table with
    | .ok text => saveModel J k table model = (some text, none)
    | .error e => (saveModel J k table model).2 = some e := by
  unfold saveTable saveModel
  cases Scheme.make k table with
  | error e => rfl
  | ok s =>
    cases hs : s.save J with
    | ok text => simp [hs]
    | error e =>
      simp only [hs]
      cases maxLevel s.table <;> rfl

/-- characters that may occur in a name of a vocabulary file -/
def Spec.Plain (c : Nat) : Prop := c ≠ 9 ∧ c ≠ 10 ∧ c ≠ 13 ∧ ¬ (0xD800 ≤ c ∧ c ≤ 0xDFFF)

/-! ## C77 -/

theorem reserved_plain : ∀ n ∈ reservedNames, ∀ c ∈ n, Plain c := by
  unfold Plain
  decide

theorem white_plain {c : Nat} (hw : isWhite c = false) (hs : ¬ (0xD800 ≤ c ∧ c ≤ 0xDFFF)) : Plain c := by
  refine ⟨?_, ?_, ?_, hs⟩ <;> rintro rfl <;> exact absurd hw (by decide)

/-- saving and loading a table with plain names -/
theorem persist {J : Json} (hJ : JsonLaws J) {k : Kind} {tbl : List Ty} {s : Scheme} (hs : Scheme.make k tbl = .ok s) (ht : s.table = tbl)
    (hne : tbl ≠ []) (hi : Indexed tbl) (hk : KidsEarlier tbl) (hn : ∀ t ∈ tbl, ∀ c ∈ t.name, Plain c) :
    ∃ text, saveTable J k tbl = .ok text ∧ loadScheme J text = .ok s := by
  obtain ⟨text, h1, h2⟩ := C13_save_load_partial hJ hs (ht ▸ hne) (ht ▸ hi) (ht ▸ hk) (by rw [ht]; exact hn)
  exact ⟨text, by rw [saveTable, hs]; exact h1, h2⟩

theorem kidsEarlier_of_nil {tbl : List Ty} (h : ∀ t ∈ tbl, t.kids = []) : KidsEarlier tbl := by
  intro i t ht k hk
  rw [h t (List.mem_of_getElem? ht)] at hk
  simp at hk

/-- a vocabulary of terms is accepted, saved and loaded -/
theorem terms_persist {J : Json} (hJ : JsonLaws J) {k : Kind} (hk : k = .word ∨ k = .char) {A : Acc} {level : Int} {tf : Dict Str Int} {cov : Option A.F}
    {lc : Option Int} {mf vs : Int} {v : List Ty} (hnd : (Dict.keys tf).Nodup) (hpos : ∀ p ∈ tf, 1 ≤ p.2) (hp : ∀ p ∈ tf, ∀ c ∈ p.1, Plain c)
    (h : getInitVocab A level tf cov lc mf vs = .ok v) :
    ∃ s text, Scheme.make k v = .ok s ∧ s.table = v ∧ s.kind = k ∧ saveTable J k v = .ok text ∧ loadScheme J text = .ok s := by
  have hc := C15_contract hnd hpos h
  have hres : (names v).take 6 = reservedNames := by
    obtain ⟨_, _, kept, _, _, _, _, _, rfl⟩ := getInitVocab_ok hnd h
    rw [names_reserved_append]; exact List.take_left' rfl
  have hval := validateReserved_of_names hres
  obtain ⟨s, hs⟩ := mkInvertible_of_nodup k hc.distinct
  have hmk : Scheme.make k v = .ok s := by
    rcases hk with rfl | rfl <;> simp only [Scheme.make, hval, hs]
  obtain ⟨h1, h2, _⟩ := mkInvertible_ok hs
  have hall : ∀ t ∈ v, t.kids = [] ∧ ∀ c ∈ t.name, Plain c := by
    intro t ht
    rw [← List.take_append_drop 6 v] at ht
    rcases List.mem_append.1 ht with ht | ht
    · constructor
      · have h1 : (t.name, t.level, t.kids) ∈ (v.take 6).map (fun t => (t.name, t.level, t.kids)) := List.mem_map.2 ⟨t, ht, rfl⟩
        rw [hc.reserved] at h1
        have h2 : ∀ x ∈ ([(lit "<pad>", -1, []), (lit "<unk>", -1, []), (lit "<s>", -1, []), (lit "</s>", -1, []),
          (lit "<cls>", -1, []), ([0x2581], -1, [])] : List (Str × Int × List Ty)), x.2.2 = [] := by decide
        exact h2 _ h1
      · have : t.name ∈ (names v).take 6 := by
          rw [names, ← List.map_take]; exact List.mem_map.2 ⟨t, ht, rfl⟩
        rw [hres] at this
        exact reserved_plain _ this
    · exact ⟨(hc.counted t ht).2.2, hp _ (hc.counted t ht).1⟩
  have hne : v ≠ [] := by rintro rfl; simp [names, reservedNames] at hres
  obtain ⟨text, g1, g2⟩ := persist hJ hmk h1 hne hc.indexed (kidsEarlier_of_nil fun t ht => (hall t ht).1) fun t ht => (hall t ht).2
  exact ⟨s, text, hmk, h1, h2, g1, g2⟩

/-- a BPE vocabulary is accepted, saved and loaded -/
theorem bpe_persist {J : Json} (hJ : JsonLaws J) {ord : Nat → List Nat → List Nat} (hord : ∀ i l, (ord i l).Perm l) {A : Acc} {tf : Dict Str Int}
    (t1 : (Dict.keys tf).Nodup) (t2 : ∀ p ∈ tf, 1 ≤ p.2) (t3 : ∀ p ∈ tf, p.1 ≠ []) (hp : ∀ p ∈ tf, ∀ c ∈ p.1, Plain c) {lc : Int}
    {vs mf : Int} {cov : Option A.F} {minEv : Int} {v : List Ty} (hv : ∀ c, cov = some c → A.valid c = true)
    (h : bpeLearnTf ord A tf lc vs mf cov minEv = .ok v) :
    ∃ s text, Scheme.make .bpe v = .ok s ∧ s.table = v ∧ s.kind = .bpe ∧ saveTable J .bpe v = .ok text ∧ loadScheme J text = .ok s := by
  obtain ⟨b1, b2, b3, b4, b5, b6⟩ := bpeTf_table hord t1 t2 t3 hv h
  have hval := validateReserved_of_names b3
  have hroot : (buildTrie v).data = none := by
    have : (buildTrie v).lookup [] = lastNamed v [] := lookup_buildTrie v []
    have h5 : lastNamed v [] = none := by
      cases hl : lastNamed v [] with
      | none => rfl
      | some t => exact absurd (lastNamed_some hl).2 (b4 t (lastNamed_some hl).1)
    rw [h5] at this
    simpa [Trie.lookup] using this
  have hmk : ∃ s, Scheme.make .bpe v = .ok s ∧ s.table = v ∧ s.kind = .bpe := ⟨_, by simp only [Scheme.make, hval, hroot]; rfl, rfl, rfl⟩
  obtain ⟨s, m1, m2, m3⟩ := hmk
  have hne : v ≠ [] := by rintro rfl; simp [names, reservedNames] at b3
  have hke : KidsEarlier v := by
    intro i t ht k hk
    rcases b5 i t ht with h | ⟨ja, jb, ta, tb, g1, g2, g3, g4, g5, _⟩
    · rw [h] at hk; simp at hk
    · rw [g5] at hk
      simp only [List.mem_cons, List.not_mem_nil, or_false] at hk
      rcases hk with rfl | rfl
      · exact ⟨ja, g1, g3⟩
      · exact ⟨jb, g2, g4⟩
  obtain ⟨text, g1, g2⟩ := persist hJ m1 m2 hne b1 hke fun t ht c hc => by
    rcases b6 t ht c hc with ⟨n, hn, hc⟩ | ⟨p, hp', hc⟩
    · exact reserved_plain n hn c hc
    · exact hp p hp' c hc
  exact ⟨s, text, m1, m2, m3, g1, g2⟩

theorem byte_persist {J : Json} (hJ : JsonLaws J) : ∃ s text, Scheme.make .byte byteVocab = .ok s ∧ s.table = byteVocab ∧ s.kind = .byte ∧
    saveTable J .byte byteVocab = .ok text ∧ loadScheme J text = .ok s := by
  obtain ⟨s, hs⟩ := mkInvertible_of_nodup .byte byteVocab_nodup
  have he : byteVocab.isEmpty = false := by simp [byteVocab]
  have hmk : Scheme.make .byte byteVocab = .ok s := by simp only [Scheme.make, he, Bool.false_eq_true, if_false, hs]
  obtain ⟨h1, h2, _⟩ := mkInvertible_ok hs
  have hall : ∀ t ∈ byteVocab, t.kids = [] ∧ ∀ c ∈ t.name, Plain c := by
    unfold Plain
    decide +kernel
  have hidx : Indexed byteVocab := by
    have : ∀ i < byteVocab.length, (byteVocab[i]?.map (·.idx)) = some i := by decide +kernel
    intro i t ht
    have hi := (List.getElem?_eq_some_iff.1 ht).1
    have := this i hi
    rw [ht] at this
    simpa using this
  obtain ⟨text, g1, g2⟩ := persist hJ hmk h1 (by rintro h; rw [h] at he; simp at he) hidx (kidsEarlier_of_nil fun t ht => (hall t ht).1) fun t ht => (hall t ht).2
  exact ⟨s, text, hmk, h1, h2, g1, g2⟩

theorem mem_of_tokens {l : Str} {ws : List Str} (h : Tokens l ws) : ∀ w ∈ ws, ∀ c ∈ w, c ∈ l ∧ isWhite c = false := by
  induction h with
  | blank _ => simp
  | last _ hw _ =>
    intro w h c hc
    rw [List.mem_singleton] at h
    subst h
    exact ⟨by simp [hc], hw.2 c hc⟩
  | cons _ hw _ _ _ ih =>
    intro w h c hc
    rcases List.mem_cons.1 h with rfl | h
    · exact ⟨by simp [hc], hw.2 c hc⟩
    · exact ⟨by simp [(ih w h c hc).1], (ih w h c hc).2⟩

/-- no line contains surrogates -/
def Spec.Decoded (data : List Str) : Prop := ∀ l ∈ data, ∀ c ∈ l, ¬ (0xD800 ≤ c ∧ c ≤ 0xDFFF)

theorem split_plain {data : List Str} (hs : Decoded data) : ∀ l ∈ data, ∀ w ∈ split l, ∀ c ∈ w, Plain c := by
  intro l hl w hw c hc
  obtain ⟨h1, h2⟩ := mem_of_tokens (tokens_split l) w hw c hc
  exact white_plain h2 (hs l hl c h1)

/-- the words counted in lines without surrogates are plain -/
theorem counted_plain {data : List Str} (hs : Decoded data) :
    (∀ p ∈ (termFrequencies .word data).1, ∀ c ∈ p.1, Plain c) ∧ ∀ p ∈ (termFrequencies .char data).1, ∀ c ∈ p.1, Plain c := by
  constructor
  · rintro ⟨n, f⟩ hp c hc
    rw [termFrequencies_count, mem_count_nil] at hp
    obtain ⟨l, hl, hn⟩ := List.mem_flatMap.1 hp.1
    simp only [learnPieces, split_strip] at hn
    exact split_plain hs l hl n hn c hc
  · rintro ⟨n, f⟩ hp c hc
    rw [termFrequencies_count, mem_count_nil] at hp
    obtain ⟨l, hl, hn⟩ := List.mem_flatMap.1 hp.1
    simp only [learnPieces, split_strip, List.mem_map] at hn
    obtain ⟨x, hx, rfl⟩ := hn
    rw [List.mem_singleton] at hc
    subst hc
    rcases mem_join hx with h | ⟨w, hw, h⟩
    · rw [List.mem_singleton] at h
      subst h
      exact ⟨by decide, by decide, by decide, by decide⟩
    · exact split_plain hs l hl w hw c h

theorem counted_pos (k : Kind) (data : List Str) : ∀ p ∈ (termFrequencies k data).1, 1 ≤ p.2 := by
  rintro ⟨n, f⟩ hp
  rw [termFrequencies_count, mem_count_nil] at hp
  have := List.count_pos_iff.2 hp.1
  simp only [hp.2]; omega

/-- C77: for the word, char and byte schemes, learning from any corpus succeeds, and the vocabulary, saved and loaded, gives the very
scheme that was saved. -/
theorem C77_learned {J : Json} (hJ : JsonLaws J) (A : Acc) {k : Kind} (hk : k = .word ∨ k = .char ∨ k = .byte) {data : List Str} (hs : Decoded data)
    (vs mf : Int) (cov : Option A.F) (hv : ∀ c, cov = some c → A.valid c = true) :
    ∃ vocab s text, learnRaw A k data vs mf cov = .ok vocab ∧ Scheme.make k vocab = .ok s ∧ s.table = vocab ∧ s.save J = .ok text ∧
      loadScheme J text = .ok s := by
  have hsave : ∀ {k : Kind} {v : List Ty} {s : Scheme} {text : Str}, Scheme.make k v = .ok s → saveTable J k v = .ok text → s.save J = .ok text := by
    intro k v s text h1 h2
    rw [saveTable, h1] at h2
    exact h2
  obtain ⟨v, _, h, _⟩ := C19_learned_accepted A k (by rcases hk with rfl | rfl | rfl <;> decide) data vs mf cov hv
  rcases hk with rfl | rfl | rfl
  · obtain ⟨s, text, h1, h2, _, h4, h5⟩ := terms_persist hJ (k := .word) (Or.inl rfl) (termFrequencies_nodup .word data) (counted_pos .word data)
      (counted_plain hs).1 h
    exact ⟨v, s, text, h, h1, h2, hsave h1 h4, h5⟩
  · obtain ⟨s, text, h1, h2, _, h4, h5⟩ := terms_persist hJ (k := .char) (Or.inr rfl) (termFrequencies_nodup .char data) (counted_pos .char data)
      (counted_plain hs).2 h
    exact ⟨v, s, text, h, h1, h2, hsave h1 h4, h5⟩
  · cases h
    obtain ⟨s, text, h1, h2, _, h4, h5⟩ := byte_persist hJ
    exact ⟨_, s, text, rfl, h1, h2, hsave h1 h4, h5⟩

/-- C77 for bpe: whatever is learned is saved and loaded as the same scheme. -/
theorem C77_learned_bpe {J : Json} (hJ : JsonLaws J) {ord : Nat → List Nat → List Nat} (hord : ∀ i l, (ord i l).Perm l) {A : Acc} {data : List Str}
    (hs : Decoded data) {vs mf : Int} {cov : Option A.F} {minEv : Int} {vocab : List Ty} (hv : ∀ c, cov = some c → A.valid c = true)
    (h : bpeLearn ord A data vs mf cov minEv = .ok vocab) :
    ∃ s text, Scheme.make .bpe vocab = .ok s ∧ s.table = vocab ∧ s.save J = .ok text ∧ loadScheme J text = .ok s := by
  obtain ⟨t1, t2, t3⟩ := termFrequencies_word data
  obtain ⟨s, text, h1, h2, _, h4, h5⟩ := bpe_persist (mf := mf) hJ hord t1 t2 t3 (counted_plain hs).1 hv h
  rw [saveTable, h1] at h4
  exact ⟨s, text, h1, h2, h4, h5⟩

/-- C77 for class labels.  Missing: no data at all, and labels with an inner tab or line break (`C13_empty_class_refuted`,
`C13_tab_label_refuted`). -/
theorem C77_learned_class_partial {J : Json} (hJ : JsonLaws J) (A : Acc) {data : List Str} (hs : ∀ l ∈ data, ∀ c ∈ strip l, Plain c) (hne : data ≠ [])
    (vs mf : Int) (cov : Option A.F) :
    ∃ vocab s text, learnRaw A .clasz data vs mf cov = .ok vocab ∧ Scheme.make .clasz vocab = .ok s ∧ s.table = vocab ∧ s.save J = .ok text ∧
      loadScheme J text = .ok s := by
  have h : learnRaw A .clasz data vs mf cov = .ok (classInitVocab (termFrequencies .clasz data).1) := rfl
  obtain ⟨c1, c2, c3, c4⟩ := C18_class_vocab h
  obtain ⟨s, hmk⟩ : ∃ s, Scheme.make .clasz (classInitVocab (termFrequencies .clasz data).1) = .ok s :=
    mkInvertible_of_nodup .clasz (c2.imp fun h => ne_of_lt h)
  obtain ⟨h1, h2, _⟩ := mkInvertible_ok (k := .clasz) hmk
  have hn : ∀ t ∈ classInitVocab (termFrequencies .clasz data).1, ∀ c ∈ t.name, Plain c := by
    intro t ht c hc
    obtain ⟨l, hl, e⟩ := List.mem_map.1 ((c3 t.name).1 (List.mem_map.2 ⟨t, ht, rfl⟩))
    exact hs l hl c (e ▸ hc)
  have hne' : classInitVocab (termFrequencies .clasz data).1 ≠ [] := by
    intro e
    obtain ⟨l, ls, rfl⟩ := List.exists_cons_of_ne_nil hne
    have := (c3 (strip l)).2 (by simp)
    rw [e] at this
    simp [names] at this
  obtain ⟨text, g1, g2⟩ := persist hJ hmk h1 hne' c1 (kidsEarlier_of_nil fun t ht => (c4 t ht).2.2) hn
  refine ⟨_, s, text, h, hmk, h1, ?_, g2⟩
  rw [saveTable, hmk] at g1
  exact g1

example : Decoded [lit "a b", lit "c"] := by unfold Decoded; decide
example : (match bpeLearn ordId accExact [lit "ab abc", lit " ab"] 0 1 none 2 with
    | .error _ => false
    | .ok v => match saveTable pyJson .bpe v with
      | .error _ => false
      | .ok text => match loadScheme pyJson text with
        | .error _ => false
        | .ok s => decide (s.table = v) && decide (s.encode (lit "abc ab") = .ok [9, 8, 5, 10])) = true := by decide +kernel

/-! ## C65 -/

/-- C65: a call of `learn_vocab` with keywords is accepted exactly if no keyword is given twice, all are parameters, and the four parameters
without default are given; otherwise it raises TypeError. -/
theorem C65_call {given args : List Str} :
    (bindKeywords given args = .ok () ↔ (∀ k ∈ args, k ∉ given) ∧
      (∀ k ∈ given ++ args, k ∈ [lit "inp", lit "level", lit "model", lit "vocab_size", lit "min_freq", lit "term_freqs", lit "char_coverage", lit "min_co_ev"]) ∧
      ∀ k ∈ [lit "inp", lit "level", lit "model", lit "vocab_size"], k ∈ given ++ args) ∧
    ∀ e, bindKeywords given args = .error e → e = .type := by
  have hn : learnParams.map (·.1) = [lit "inp", lit "level", lit "model", lit "vocab_size", lit "min_freq", lit "term_freqs", lit "char_coverage", lit "min_co_ev"] := rfl
  have hreq : (learnParams.any fun p => !p.2 && decide (p.1 ∉ given ++ args)) = true ↔
      ¬ ∀ k ∈ [lit "inp", lit "level", lit "model", lit "vocab_size"], k ∈ given ++ args := by
    simp only [learnParams, List.any_cons, List.any_nil, Bool.not_true, Bool.false_and, Bool.or_false, Bool.not_false, Bool.true_and, Bool.or_eq_true,
      decide_eq_true_eq, List.forall_mem_cons, List.not_mem_nil, false_implies, implies_true, and_true, not_and_or]
  have h1 : (args.any fun k => decide (k ∈ given)) = true ↔ ¬ ∀ k ∈ args, k ∉ given := by simp
  have h2 : ((given ++ args).any fun k => decide (k ∉ learnParams.map (·.1))) = true ↔ ¬ ∀ k ∈ given ++ args, k ∈ learnParams.map (·.1) := by
    rw [List.any_eq_true]
    simp only [decide_eq_true_eq, not_forall, exists_prop]
  rw [hn] at h2
  refine ⟨?_, fun e h => ?_⟩
  · rw [bindKeywords, hn]
    split
    · rename_i h; simp only [reduceCtorEq, false_iff]; exact fun g => h1.1 h g.1
    · rename_i g1
      split
      · rename_i h; simp only [reduceCtorEq, false_iff]; exact fun g => h2.1 h g.2.1
      · rename_i g2
        split
        · rename_i h; simp only [reduceCtorEq, false_iff]; exact fun g => hreq.1 h g.2.2
        · rename_i g3
          simp only [true_iff]
          exact ⟨by rwa [h1, not_not] at g1, by rwa [h2, not_not] at g2, by rwa [hreq, not_not] at g3⟩
  · rw [bindKeywords] at h
    split at h
    · cases h; rfl
    · split at h
      · cases h; rfl
      · split at h
        · cases h; rfl
        · cases h

/-- accepted; a keyword twice; an unknown keyword; a missing one -/
example : bindKeywords [lit "inp", lit "model"] [lit "level", lit "vocab_size"] = .ok () ∧
    bindKeywords [lit "inp", lit "model"] [lit "level", lit "vocab_size", lit "inp"] = .error .type ∧
    bindKeywords [lit "inp", lit "model"] [lit "level", lit "vocab_size", lit "dedup"] = .error .type ∧
    bindKeywords [lit "inp", lit "model"] [lit "level", lit "min_co_ev"] = .error .type := by decide +kernel

/-- C65 is false: if the statistics file exists, the run ends with TypeError (`inp` is given twice) and changes nothing, whatever the
arguments and files. -/
theorem C65_reuse_refuted (R1 R2 : Reduction Str Int) (distinct : List Str → List Str) (J : Json) (ord : Nat → List Nat → List Nat) (A : Acc)
    (args : LearnArgs A.F) (fs : LearnFiles) (h : (if args.level = .char then fs.chars else fs.words) ≠ none) :
    learnMain R1 R2 distinct J ord A args fs = (fs, .error .type) := by
  obtain ⟨text, ht⟩ := Option.ne_none_iff_exists'.1 h
  have ht' : fs.stats args.level = some text := ht
  simp only [learnMain, ht']
  rfl

/-- the run without statistics files -/
theorem learnMain_first {R1 R2 : Reduction Str Int} {distinct : List Str → List Str} {J : Json} {ord : Nat → List Nat → List Nat} {A : Acc}
    {args : LearnArgs A.F} {fs : LearnFiles} (h : fs.stats args.level = none) {wf cf : Dict Str Int} {n : Int}
    (hc : wordCounts R1 R2 distinct args.dedup args.files = .ok (wf, cf, n)) :
    ∀ r, learnMain R1 R2 distinct J ord A args fs = r → r.1.words = some (writeStats J wf (some n)) ∧ r.1.chars = some (writeStats J cf (some n)) ∧
      ∀ lines, lines = fileLines (writeStats J (if args.level = .char then cf else wf) (some n)) →
        match learnTf J ord A args.level lines args.vocabSize args.minFreq args.cov args.minCoEv with
        | .error e => r.2 = .error e ∧ r.1.model = fs.model
        | .ok table => match saveTable J args.level.kind table with
          | .error e => r.2 = .error e
          | .ok text => r.2 = .ok () ∧ r.1.model = some text := by
  intro r hr
  have hk : bindKeywords [lit "inp", lit "term_freqs"] ((((learnKeys.erase (lit "spark_master")).erase (lit "driver_mem")).erase (lit "dedup")).erase (lit "inp")) = .ok () := by
    decide
  have hst : (LearnFiles.mk (some (writeStats J wf (some n))) (some (writeStats J cf (some n))) fs.model).stats args.level =
      some (writeStats J (if args.level = .char then cf else wf) (some n)) := by
    rw [LearnFiles.stats]; split <;> rfl
  simp only [learnMain, h, hc, hst, hk] at hr
  subst hr
  cases hl : learnTf J ord A args.level (fileLines (writeStats J (if args.level = .char then cf else wf) (some n))) args.vocabSize args.minFreq
      args.cov args.minCoEv with
  | error e =>
    refine ⟨rfl, rfl, ?_⟩
    rintro _ rfl
    rw [hl]
    exact ⟨rfl, rfl⟩
  | ok table =>
    have hsv := saveModel_table (J := J) (k := args.level.kind) (table := table) (model := fs.model)
    cases hs : saveTable J args.level.kind table with
    | error e =>
      rw [hs] at hsv
      refine ⟨rfl, rfl, ?_⟩
      rintro _ rfl
      rw [hl]
      simp [hs, hsv]
    | ok text =>
      rw [hs] at hsv
      refine ⟨rfl, rfl, ?_⟩
      rintro _ rfl
      rw [hl]
      simp [hs, hsv]

/-- C65: after a run that counted words, whatever its outcome, no further run succeeds, for any arguments and level. -/
theorem C65_second_run_refuted {R1 R2 : Reduction Str Int} {distinct : List Str → List Str} {J : Json} {ord : Nat → List Nat → List Nat} {A : Acc}
    {args args' : LearnArgs A.F} {fs : LearnFiles} (h : fs.stats args.level = none) {wf cf : Dict Str Int} {n : Int}
    (hc : wordCounts R1 R2 distinct args.dedup args.files = .ok (wf, cf, n)) :
    ∀ fs', fs' = (learnMain R1 R2 distinct J ord A args fs).1 → learnMain R1 R2 distinct J ord A args' fs' = (fs', .error .type) := by
  rintro fs' rfl
  obtain ⟨h1, h2, _⟩ := learnMain_first (J := J) (ord := ord) h hc _ rfl
  apply C65_reuse_refuted
  rw [h1, h2]
  split <;> exact Option.some_ne_none _

/-! ## C78 -/

theorem dict_perm {d d' : Dict Str Int} (h : (Dict.keys d).Nodup) (h' : (Dict.keys d').Nodup) (hm : ∀ k v, (k, v) ∈ d ↔ (k, v) ∈ d') : d.Perm d' := by
  rw [List.perm_ext_iff_of_nodup (List.Nodup.of_map _ h) (List.Nodup.of_map _ h')]
  rintro ⟨k, v⟩
  exact hm k v

theorem tokens_isToken {lines : List Str} {toks : List (List Str)} (ht : List.Forall₂ Tokens lines toks) :
    ∀ ws ∈ toks, ∀ w ∈ ws, IsToken w := by
  induction ht with
  | nil => simp
  | cons h _ ih =>
    intro ws hws w hw
    rcases List.mem_cons.1 hws with rfl | hws
    · rw [← split_of_tokens h] at hw
      exact split_isToken hw
    · exact ih ws hws w hw

/-- the statistics written, and read back -/
theorem stats_read {J : Json} (hJ : JsonLaws J) {R1 R2 : Reduction Str Int} (h1 : R1.Lawful) (h2 : R2.Lawful) {distinct : List Str → List Str}
    (hd : ∀ l, (distinct l).Nodup ∧ ∀ x, x ∈ distinct l ↔ x ∈ l) {dedup : Bool} {files : List (List Str)} {lines : List Str} {toks : List (List Str)}
    (hc : Counted dedup files lines) (ht : List.Forall₂ Tokens lines toks) (hne : lines ≠ []) (htag : lit "<!S!>" ∉ toks.flatten) :
    ∃ wf cf dw dc, wordCounts R1 R2 distinct dedup files = .ok (wf, cf, (lines.length : Int)) ∧
      wf.Perm (termFrequencies .word lines).1 ∧
      readTermFreqs J (fileLines (writeStats J wf (some lines.length))) = .ok (dw, lines.length) ∧ dw.Perm (termFrequencies .word lines).1 ∧
      readTermFreqs J (fileLines (writeStats J cf (some lines.length))) = .ok (dc, lines.length) ∧
      (Dict.keys dc).Nodup ∧ ∀ c f, (c, f) ∈ dc ↔ ∃ ch, c = [ch] ∧ ch ∈ toks.flatten.flatten ∧ f = toks.flatten.flatten.count ch := by
  obtain ⟨wf, cf, w1, w2, w3, w4, w5⟩ := C64_exact_partial h1 h2 hd hc ht hne htag
  have htok : ∀ w ∈ toks.flatten, IsToken w := by
    intro w hw
    obtain ⟨ws, hws, hw⟩ := List.mem_flatten.1 hw
    exact tokens_isToken ht ws hws w hw
  have hterm : ∀ w : Str, IsToken w → 9 ∉ w ∧ 10 ∉ w ∧ strip w = w := by
    intro w hw
    refine ⟨fun hc => ?_, fun hc => ?_, strip_token hw⟩
    · have := hw.2 9 hc; exact absurd this (by decide)
    · have := hw.2 10 hc; exact absurd this (by decide)
  have hp : wf.Perm (termFrequencies .word lines).1 := by
    refine dict_perm w2 (termFrequencies_nodup _ _) fun w f => ?_
    rw [w3, C15_counts lines toks ht (Or.inl rfl)]
    simp only [if_true]
    rw [show toks.flatMap (fun ws => ws) = toks.flatten from List.flatMap_id]
  obtain ⟨dw, r1, r2, _⟩ := C31_stats_round_trip hJ w2 (fun p hp' => hterm p.1 (htok _ ((w3 p.1 p.2).1 hp').1)) (lines.length : Int)
  obtain ⟨dc, r3, r4, _⟩ := C31_stats_round_trip hJ w4 (fun p hp' => hterm p.1 (by
    obtain ⟨ch, e, hch, _⟩ := (w5 p.1 p.2).1 hp'
    obtain ⟨w, hw, hcw⟩ := List.mem_flatten.1 hch
    rw [e]
    exact ⟨by simp, fun c hc => by rw [List.mem_singleton] at hc; subst hc; exact (htok w hw).2 c hcw⟩)) (lines.length : Int)
  refine ⟨wf, cf, dw, dc, w1, hp, r1, r2.trans hp, r3, (r4.map _).nodup_iff.2 w4, fun c f => ?_⟩
  rw [r4.mem_iff, w5]

theorem one_token {l w : Str} (h : Tokens l [w]) : strip l = w := by
  cases h with
  | last hg hw hh =>
    refine strip_of_decomp hg hh ?_ ?_
    · intro c hc
      exact Bool.eq_false_iff.2 fun e => by
        have := hw.2 c (List.mem_of_mem_head? (Option.mem_def.2 hc))
        rw [white_iff.2 e] at this
        exact Bool.noConfusion this
    · intro c hc
      exact Bool.eq_false_iff.2 fun e => by
        have := hw.2 c (List.mem_of_mem_getLast? (Option.mem_def.2 hc))
        rw [white_iff.2 e] at this
        exact Bool.noConfusion this
  | cons _ _ _ _ hne => exact absurd rfl hne

theorem tokens_pairs {lines : List Str} {toks : List (List Str)} (ht : List.Forall₂ Tokens lines toks) :
    (∀ l ∈ lines, ∃ ws ∈ toks, Tokens l ws) ∧ ∀ ws ∈ toks, ∃ l ∈ lines, Tokens l ws := by
  induction ht with
  | nil => simp
  | cons h _ ih =>
    constructor
    · intro l hl
      rcases List.mem_cons.1 hl with rfl | hl
      · exact ⟨_, by simp, h⟩
      · obtain ⟨ws, h1, h2⟩ := ih.1 l hl
        exact ⟨ws, by simp [h1], h2⟩
    · intro ws hws
      rcases List.mem_cons.1 hws with rfl | hws
      · exact ⟨_, by simp, h⟩
      · obtain ⟨l, h1, h2⟩ := ih.2 ws hws
        exact ⟨l, by simp [h1], h2⟩

theorem one_token_pieces {lines : List Str} {toks : List (List Str)} (ht : List.Forall₂ Tokens lines toks) (hone : ∀ ws ∈ toks, ws.length = 1) :
    lines.flatMap (learnPieces .word) = lines.map strip := by
  induction ht with
  | nil => rfl
  | @cons l ws ls wss h _ ih =>
    rw [List.flatMap_cons, List.map_cons, ih fun ws hws => hone ws (List.mem_cons_of_mem _ hws)]
    obtain ⟨w, rfl⟩ := List.length_eq_one_iff.1 (hone ws (by simp))
    have e : learnPieces .word l = [w] := by
      simp only [learnPieces, split_strip]
      exact split_of_tokens h
    rw [e, one_token h]
    rfl

section
variable {J : Json} (hJ : JsonLaws J) {R1 R2 : Reduction Str Int} (h1 : R1.Lawful) (h2 : R2.Lawful) {distinct : List Str → List Str}
    (hd : ∀ l, (distinct l).Nodup ∧ ∀ x, x ∈ distinct l ↔ x ∈ l) {ord : Nat → List Nat → List Nat} {A : Acc} {args : LearnArgs A.F} {fs : LearnFiles}
    {lines : List Str} {toks : List (List Str)} (hc : Counted args.dedup args.files lines) (ht : List.Forall₂ Tokens lines toks)
    (hne : lines ≠ []) (htag : lit "<!S!>" ∉ toks.flatten) (hdec : Decoded lines)

include hJ h1 h2 hd hc ht hne htag

/-- C65, what works: a run without statistics files writes both, whatever comes of the learning, and they read back as the exact counts of
the words and of their characters.  Missing: using them again (`C65_reuse_refuted`, `C65_second_run_refuted`). -/
theorem C65_first_run_partial (hf : (if args.level = .char then fs.chars else fs.words) = none) :
    ∃ words chars dw dc, (learnMain R1 R2 distinct J ord A args fs).1.words = some words ∧ (learnMain R1 R2 distinct J ord A args fs).1.chars = some chars ∧
      readTermFreqs J (fileLines words) = .ok (dw, lines.length) ∧ (Dict.keys dw).Nodup ∧
      (∀ w f, (w, f) ∈ dw ↔ w ∈ toks.flatten ∧ f = toks.flatten.count w) ∧
      readTermFreqs J (fileLines chars) = .ok (dc, lines.length) ∧ (Dict.keys dc).Nodup ∧
      ∀ c f, (c, f) ∈ dc ↔ ∃ ch, c = [ch] ∧ ch ∈ toks.flatten.flatten ∧ f = toks.flatten.flatten.count ch := by
  obtain ⟨wf, cf, dw, dc, w1, w2, w3, w4, w5, w6, w7⟩ := stats_read hJ h1 h2 hd hc ht hne htag
  obtain ⟨m1, m2, _⟩ := learnMain_first (J := J) (ord := ord) (A := A) (args := args) (fs := fs) hf w1 _ rfl
  refine ⟨_, _, dw, dc, m1, m2, w3, (w4.map _).nodup_iff.2 (termFrequencies_nodup _ _), fun w f => ?_, w5, w6, w7⟩
  rw [w4.mem_iff, C15_counts lines toks ht (k := .word) (Or.inl rfl)]
  simp only [if_true]
  rw [show toks.flatMap (fun ws => ws) = toks.flatten from List.flatMap_id]

include hdec in
/-- C78 for words, first runs on texts without the word `<!S!>`: the model file loads as a word scheme with the vocabulary learned from the
same lines directly, up to the exchange of equally frequent words at the size limit.  Missing: further runs (C65), texts with `<!S!>`, empty
texts (C64). -/
theorem C78_word_partial (hl : args.level = .word) (hf : fs.words = none) :
    ∃ fs' text s v, learnMain R1 R2 distinct J ord A args fs = (fs', .ok ()) ∧ fs'.model = some text ∧ loadScheme J text = .ok s ∧ s.kind = .word ∧
      learnVocab ord A .word lines args.vocabSize args.minFreq args.cov args.minCoEv = .ok v ∧
      v.take 6 = s.table.take 6 ∧ v.map (·.freq) = s.table.map (·.freq) ∧
      (∀ t ∈ v.drop 6, t.name ∉ names s.table → ∀ u ∈ s.table.drop 6, t.freq ≤ u.freq) ∧
      (∀ t ∈ s.table.drop 6, t.name ∉ names v → ∀ u ∈ v.drop 6, t.freq ≤ u.freq) ∧
      (args.vocabSize ≤ 0 → (v.map fun t => (t.name, t.freq)).Perm (s.table.map fun t => (t.name, t.freq))) := by
  obtain ⟨wf, cf, dw, dc, w1, w2, w3, w4, _⟩ := stats_read hJ h1 h2 hd hc ht hne htag
  obtain ⟨_, _, m3⟩ := learnMain_first (J := J) (ord := ord) (A := A) (args := args) (fs := fs) (by rw [LearnFiles.stats, hl]; exact hf) w1 _ rfl
  have m4 := m3 _ rfl
  obtain ⟨v, v', r1, r2, r3, r4, _, r6, r7, r8⟩ := C32_stats_learning hJ (A := A) lines w2 args.vocabSize (effMinFreq .word args.minFreq)
  have hget : getInitVocab A Level.word dw none (some (lines.length : Int)) (effMinFreq .word args.minFreq) args.vocabSize = .ok v' := by
    simpa only [learnFromStats, w3] using r2
  obtain ⟨s, text, s1, s2, s3, s4, s5⟩ := terms_persist hJ (k := .word) (Or.inl rfl) ((w4.map _).nodup_iff.2 (termFrequencies_nodup _ _))
    (fun p hp => counted_pos .word lines p (w4.subset hp)) (fun p hp => (counted_plain hdec).1 p (w4.subset hp)) hget
  have hlt : learnTf J ord A args.level (fileLines (writeStats J (if args.level = .char then cf else wf) (some (lines.length : Int)))) args.vocabSize
      args.minFreq args.cov args.minCoEv = .ok v' := by
    rw [hl]; exact r2
  rw [hlt] at m4
  have hk : args.level.kind = .word := by rw [hl]; rfl
  simp only [hk, s4] at m4
  subst s2
  exact ⟨_, text, s, v, Prod.ext rfl m4.1, m4.2, s5, s3, r1, r3, r4, r6, r7, r8⟩

/-- C78 for bytes, first runs. -/
theorem C78_byte_partial (hl : args.level = .byte) (hf : fs.words = none) :
    ∃ fs' text s, learnMain R1 R2 distinct J ord A args fs = (fs', .ok ()) ∧ fs'.model = some text ∧ loadScheme J text = .ok s ∧ s.kind = .byte ∧
      learnVocab ord A .byte lines args.vocabSize args.minFreq args.cov args.minCoEv = .ok s.table := by
  obtain ⟨wf, cf, dw, dc, w1, w2, w3, w4, _⟩ := stats_read hJ h1 h2 hd hc ht hne htag
  obtain ⟨_, _, m3⟩ := learnMain_first (J := J) (ord := ord) (A := A) (args := args) (fs := fs) (by rw [LearnFiles.stats, hl]; exact hf) w1 _ rfl
  have m4 := m3 _ rfl
  obtain ⟨s, text, s1, s2, s3, s4, s5⟩ := byte_persist hJ
  have hlt : learnTf J ord A args.level (fileLines (writeStats J (if args.level = .char then cf else wf) (some (lines.length : Int)))) args.vocabSize
      args.minFreq args.cov args.minCoEv = .ok byteVocab := by
    rw [hl]; rfl
  rw [hlt] at m4
  have hk : args.level.kind = .byte := by rw [hl]; rfl
  simp only [hk, s4] at m4
  exact ⟨_, text, s, Prod.ext rfl m4.1, m4.2, s5, s3, by rw [s2]; rfl⟩

include hdec in
/-- C78 for classes, first runs, if every label is a single word: the vocabulary is the one learned directly.  Missing: labels of several
words, see `C78_class_refuted`. -/
theorem C78_class_partial (hl : args.level = .clasz) (hf : fs.words = none) (hone : ∀ ws ∈ toks, ws.length = 1) :
    ∃ fs' text s, learnMain R1 R2 distinct J ord A args fs = (fs', .ok ()) ∧ fs'.model = some text ∧ loadScheme J text = .ok s ∧ s.kind = .clasz ∧
      learnVocab ord A .clasz lines args.vocabSize args.minFreq args.cov args.minCoEv = .ok s.table := by
  obtain ⟨wf, cf, dw, dc, w1, w2, w3, w4, _⟩ := stats_read hJ h1 h2 hd hc ht hne htag
  obtain ⟨_, _, m3⟩ := learnMain_first (J := J) (ord := ord) (A := A) (args := args) (fs := fs) (by rw [LearnFiles.stats, hl]; exact hf) w1 _ rfl
  have m4 := m3 _ rfl
  have hpieces : (termFrequencies .word lines).1 = (termFrequencies .clasz lines).1 := by
    rw [termFrequencies_count, termFrequencies_count, learnPieces_class, one_token_pieces ht hone]
  have hv : classInitVocab dw = classInitVocab (termFrequencies .clasz lines).1 :=
    classInitVocab_perm (termFrequencies_nodup _ _) (hpieces ▸ w4)
  have hplain : ∀ l ∈ lines, ∀ c ∈ strip l, Plain c := by
    intro l hl' c hc'
    have hsp := split_plain hdec l hl'
    obtain ⟨ws, hws, htk⟩ := (tokens_pairs ht).1 l hl'
    obtain ⟨w, rfl⟩ := List.length_eq_one_iff.1 (hone ws hws)
    rw [one_token htk] at hc'
    exact hsp w (by rw [split_of_tokens htk]; simp) c hc'
  obtain ⟨v, s, text, r1, r2, r3, r4, r5⟩ := C77_learned_class_partial hJ A hplain hne args.vocabSize (effMinFreq .clasz args.minFreq) args.cov
  have hv' : v = classInitVocab dw := by
    rw [hv]; exact (Except.ok.inj r1).symm
  have hlt : learnTf J ord A args.level (fileLines (writeStats J (if args.level = .char then cf else wf) (some (lines.length : Int)))) args.vocabSize
      args.minFreq args.cov args.minCoEv = .ok v := by
    rw [hl, hv']
    show (match readTermFreqs J _ with | .error e => _ | .ok (tf, _) => _) = _
    rw [if_neg (by decide), w3]
  rw [hlt] at m4
  have hk : args.level.kind = .clasz := by rw [hl]; rfl
  have hsave : saveTable J .clasz v = .ok text := by rw [saveTable, r2]; exact r4
  simp only [hk, hsave] at m4
  exact ⟨_, text, s, Prod.ext rfl m4.1, m4.2, r5, (mkInvertible_ok (k := .clasz) r2).2.1, by rw [r3]; exact r1⟩

include hdec in
/-- C78 for bpe, first runs: a vocabulary that is written loads as a BPE scheme, and comes from a run of most-frequent-pair merges on the
exact word counts of the lines (as for direct learning, C20).  Missing: that learning succeeds (C25), and the points listed for words. -/
theorem C78_bpe_partial (hord : ∀ i l, (ord i l).Perm l) (hl : args.level = .bpe) (hf : fs.words = none) (hv : ∀ c, args.cov = some c → A.valid c = true)
    {fs' : LearnFiles} (hok : learnMain R1 R2 distinct J ord A args fs = (fs', .ok ())) :
    ∃ text s, fs'.model = some text ∧ loadScheme J text = .ok s ∧ s.kind = .bpe ∧
      ∃ (tf cf : List (Str × Int)) (v0 : List Ty) (C : Corpus) (k : Nat) (C' : Corpus),
        (∀ n f, (n, f) ∈ tf ↔ n ∈ toks.flatten ∧ f = toks.flatten.count n) ∧ (tf.map (·.1)).Nodup ∧
        (∀ n f, (n, f) ∈ cf ↔ ∃ c, n = [c] ∧ f = chCount tf c ∧ 0 < f) ∧ VocabContract Level.char 1 cf v0 ∧
        List.Forall₂ (CodedWord v0) tf C ∧ Run args.minCoEv Level.subword C v0 k C' s.table ∧
        ((s.table.length : Int) = effSize args.vocabSize args.minCoEv ∨ ∃ p, IsBest C' p ∧ pairCount C' p < args.minCoEv) := by
  obtain ⟨wf, cf, dw, dc, w1, w2, w3, w4, _⟩ := stats_read hJ h1 h2 hd hc ht hne htag
  obtain ⟨_, _, m3⟩ := learnMain_first (J := J) (ord := ord) (A := A) (args := args) (fs := fs) (by rw [LearnFiles.stats, hl]; exact hf) w1 _ hok
  have m4 := m3 _ rfl
  obtain ⟨t1, t2, t3⟩ := termFrequencies_word lines
  have d1 : (Dict.keys dw).Nodup := (w4.map _).nodup_iff.2 t1
  have d2 : ∀ p ∈ dw, 1 ≤ p.2 := fun p hp => t2 p (w4.subset hp)
  have d3 : ∀ p ∈ dw, p.1 ≠ [] := fun p hp => t3 p (w4.subset hp)
  cases hlt : learnTf J ord A args.level (fileLines (writeStats J (if args.level = .char then cf else wf) (some (lines.length : Int)))) args.vocabSize
      args.minFreq args.cov args.minCoEv with
  | error e => rw [hlt] at m4; exact absurd m4.1 (by simp)
  | ok v =>
    rw [hlt] at m4
    have hb : bpeLearnTf ord A dw lines.length args.vocabSize (effMinFreq .bpe args.minFreq) args.cov args.minCoEv = .ok v := by
      rw [hl] at hlt
      simp only [learnTf] at hlt
      rw [if_neg (show ¬ LevelName.bpe = .char by decide), if_pos trivial, w3] at hlt
      by_cases hsz : ¬ 0 < (if 1 < args.minCoEv ∧ args.vocabSize ≤ 1 then maxSize else args.vocabSize)
      · rw [if_pos hsz] at hlt; exact absurd hlt (by simp)
      · rw [if_neg hsz] at hlt; exact hlt
    obtain ⟨s, text, s1, s2, s3, s4, s5⟩ := bpe_persist hJ hord d1 d2 d3 (fun p hp => (counted_plain hdec).1 p (w4.subset hp)) hv hb
    obtain ⟨cf', v0, C, k, C', c2, c3, c4, c5, c6⟩ := bpeTf_runs hord d1 d2 d3 hv hb
    have hk : args.level.kind = .bpe := by rw [hl]; rfl
    simp only [hk, s4] at m4
    subst s2
    refine ⟨text, s, m4.2, s5, s3, dw, cf', v0, C, k, C', ?_, d1, c2, c3, c4, c5, c6⟩
    intro n f
    rw [w4.mem_iff, C15_counts lines toks ht (k := .word) (Or.inl rfl)]
    simp only [if_true]
    rw [show toks.flatMap (fun ws => ws) = toks.flatten from List.flatMap_id]

include hdec in
/-- C78 for characters, first runs: the model file loads as a char scheme whose vocabulary keeps to the learning contract for the exact
counts of the characters of the words.  Missing: the count of spaces, see `C78_char_refuted`. -/
theorem C78_char_partial (hl : args.level = .char) (hf : fs.chars = none) (hv : ∀ c, args.cov = some c → A.valid c = true) :
    ∃ fs' text s, learnMain R1 R2 distinct J ord A args fs = (fs', .ok ()) ∧ fs'.model = some text ∧ loadScheme J text = .ok s ∧ s.kind = .char ∧
      ∃ tf : List (Str × Int), (∀ c f, (c, f) ∈ tf ↔ ∃ ch, c = [ch] ∧ ch ∈ toks.flatten.flatten ∧ f = toks.flatten.flatten.count ch) ∧
        VocabContract Level.char (if args.minFreq < 1 then 20 else args.minFreq) tf s.table := by
  obtain ⟨wf, cf, dw, dc, w1, _, _, _, w3, w4, w5⟩ := stats_read hJ h1 h2 hd hc ht hne htag
  obtain ⟨_, _, m3⟩ := learnMain_first (J := J) (ord := ord) (A := A) (args := args) (fs := fs) (by rw [LearnFiles.stats, hl]; exact hf) w1 _ rfl
  have m4 := m3 _ rfl
  have hpos : ∀ p ∈ dc, 1 ≤ p.2 := by
    rintro ⟨n, f⟩ hp
    obtain ⟨ch, _, hch, e⟩ := (w5 n f).1 hp
    have := List.count_pos_iff.2 hch
    simp only [e]; omega
  have hplain : ∀ p ∈ dc, ∀ c ∈ p.1, Plain c := by
    rintro ⟨n, f⟩ hp c hc'
    obtain ⟨ch, rfl, hch, _⟩ := (w5 n f).1 hp
    rw [List.mem_singleton] at hc'
    subst hc'
    obtain ⟨w, hw, hcw⟩ := List.mem_flatten.1 hch
    obtain ⟨ws, hws, hw⟩ := List.mem_flatten.1 hw
    obtain ⟨l, hl', htk⟩ := (tokens_pairs ht).2 ws hws
    exact split_plain hdec l hl' w (by rw [split_of_tokens htk]; exact hw) c hcw
  have hex : ∃ v, getInitVocab A Level.char dc args.cov (some (lines.length : Int)) (effMinFreq .char args.minFreq) args.vocabSize = .ok v := by
    simp only [getInitVocab]
    cases hcov : args.cov with
    | none => exact ⟨_, rfl⟩
    | some c =>
      obtain ⟨kept, rest, hf, _⟩ := C17_prefix_partial A (nodup_popReserved w4)
        (fun p hp => hpos p ((popReserved_sublist dc).subset hp)) (hv c hcov)
      simp only [hf]; exact ⟨_, rfl⟩
  obtain ⟨v, hg⟩ := hex
  obtain ⟨s, text, s1, s2, s3, s4, s5⟩ := terms_persist hJ (k := .char) (Or.inr rfl) w4 hpos hplain hg
  have hlt : learnTf J ord A args.level (fileLines (writeStats J (if args.level = .char then cf else wf) (some (lines.length : Int)))) args.vocabSize
      args.minFreq args.cov args.minCoEv = .ok v := by
    rw [hl]
    simp only [learnTf]
    rw [if_pos trivial, w3]
    exact hg
  rw [hlt] at m4
  have hk : args.level.kind = .char := by rw [hl]; rfl
  simp only [hk, s4] at m4
  subst s2
  exact ⟨_, text, s, Prod.ext rfl m4.1, m4.2, s5, s3, dc, w5, C15_contract w4 hpos hg⟩

end

/-- outcome of a first run: names and frequencies of the loaded model -/
def firstRun (level : LevelName) (file : List Str) : Py (List (Str × Int)) :=
  match learnMain exRed exRed List.dedup pyJson ordId accExact ⟨[file], level, 0, 1, none, 2, false⟩ ⟨none, none, none⟩ with
  | (_, .error e) => .error e
  | (fs, .ok ()) => match fs.model with
    | none => .error .exception
    | some text => match loadScheme pyJson text with
      | .error e => .error e
      | .ok s => .ok (s.table.map fun t => (t.name, t.freq))

/-- the same from the lines directly -/
def directRun (level : LevelName) (file : List Str) : Py (List (Str × Int)) :=
  match learnVocab ordId accExact level file 0 1 none 2 with
  | .error e => .error e
  | .ok v => .ok (v.map fun t => (t.name, t.freq))

/-- C78 is false for characters: in "a b" the space is counted by direct learning, and by `nlcodec-learn` it is not. -/
theorem C78_char_refuted :
    directRun .char [lit "a b"] = .ok [(lit "<pad>", -1), (lit "<unk>", -1), (lit "<s>", 1), (lit "</s>", 1), (lit "<cls>", 1), ([SP], 1), (lit "a", 1), (lit "b", 1)] ∧
    firstRun .char [lit "a b"] = .ok [(lit "<pad>", -1), (lit "<unk>", -1), (lit "<s>", 1), (lit "</s>", 1), (lit "<cls>", 1), ([SP], -1), (lit "a", 1), (lit "b", 1)] := by
  decide +kernel

/-- C78 is false for class labels: the label "New York" is split. -/
theorem C78_class_refuted :
    directRun .clasz [lit "New York"] = .ok [(lit "New York", 1)] ∧ firstRun .clasz [lit "New York"] = .ok [(lit "New", 1), (lit "York", 1)] := by
  decide +kernel

/-- a text without the tag, with the vocabularies of both ways at each level -/
example : Counted false [[lit "ab abc", lit " ab"]] [lit "ab abc", lit " ab"] ∧ Decoded [lit "ab abc", lit " ab"] ∧
    lit "<!S!>" ∉ [[lit "ab", lit "abc"], [lit "ab"]].flatten := by
  refine ⟨?_, ?_, by decide⟩
  · simp [Counted]
  · unfold Decoded; decide
/-- two runs in a row -/
example : (match learnMain exRed exRed List.dedup pyJson ordId accExact ⟨[[lit "a b"]], .word, 0, 1, none, 2, false⟩ ⟨none, none, none⟩ with
    | (_, .error _) => false
    | (fs, .ok ()) => decide (learnMain exRed exRed List.dedup pyJson ordId accExact ⟨[[lit "a b"]], .word, 0, 1, none, 2, false⟩ fs = (fs, .error .type))) = true := by
  decide +kernel
example : directRun .word [lit "ab abc", lit " ab"] = firstRun .word [lit "ab abc", lit " ab"] := by decide +kernel
example : directRun .bpe [lit "ab abc", lit " ab"] = firstRun .bpe [lit "ab abc", lit " ab"] := by decide +kernel
example : directRun .clasz [lit "cat", lit " dog", lit "cat\n"] = firstRun .clasz [lit "cat", lit " dog", lit "cat"] := by decide +kernel
example : (match directRun .bpe [lit "ab abc", lit " ab"] with | .ok v => v.drop 6 | .error _ => []) =
    [(lit "a", 3), (lit "b", 3), (lit "c", 1), (lit "ab", 3), (lit "ab▁", 2)] := by decide +kernel

end Verif
