import Verif.Model.BitextCli
import Verif.Props.FreqCli
import Verif.Props.Spark
import Verif.Props.BatchIter
/-!
# Property C97: from text files over models and a database to batches
-/

namespace Verif
open Spec

/-! ## Specification -/

/-- the record of the lines number `i`: both are there, not empty and not encoded as nothing; their encodings, cut to the given lengths, or, without
truncation, whole if shorter -/
def Spec.RecordOf (cut : Bool) (s t : Scheme) (src tgt : List Str) (n m : Nat) (r : Nat × List (List Int)) : Prop :=
  ∃ l l' x y, src[r.1]? = some l ∧ tgt[r.1]? = some l' ∧ l ≠ [] ∧ l' ≠ [] ∧ s.encode l = .ok x ∧ t.encode l' = .ok y ∧ x ≠ [] ∧ y ≠ [] ∧
    Columns cut n m x y r.2

/-- a model file with a word, char or BPE scheme -/
def Spec.TextModel (J : Json) (text : Str) (s : Scheme) : Prop :=
  loadScheme J text = .ok s ∧ (s.kind = .word ∨ s.kind = .char ∨ s.kind = .bpe)

/-! ## Lemmas -/

theorem textModel_range {J : Json} {text : Str} {s : Scheme} (h : TextModel J text s) (line : Str) :
    ∃ ids, s.encode line = .ok ids ∧ ∀ i ∈ ids, 0 ≤ i ∧ i < s.table.length := by
  obtain ⟨h1, h2⟩ := h
  unfold loadScheme at h1
  cases hr : readVocab J text with
  | error e => simp [hr] at h1
  | ok p =>
    obtain ⟨tbl, hd⟩ := p
    simp only [hr] at h1
    cases hk : headerKind hd with
    | error e => simp [hk] at h1
    | ok k =>
      simp only [hk] at h1
      have hi := (C14_read_wellformed_partial J hr).1
      cases k with
      | word =>
        have := (make_word_ok h1).1
        rw [this]
        exact C05_ids_in_range_word_char (.inl rfl) h1 line
      | char =>
        have := (make_char_ok h1).1
        rw [this]
        exact C05_ids_in_range_word_char (.inr rfl) h1 line
      | bpe =>
        have := (make_bpe_ok h1).1
        rw [this]
        exact C05_ids_in_range_bpe h1 hi line
      | clasz =>
        have := (mkInvertible_ok h1).2.1
        rw [this] at h2; simp at h2
      | byte =>
        have := (mkInvertible_ok h1).2.1
        rw [this] at h2; simp at h2

theorem ids_of_encode {s : Scheme} {line : Str} {ids : List Int} (h : s.encode line = .ok ids) : s.ids line = ids := by
  rw [Scheme.ids, h]

theorem recordOf_iff {cut : Bool} {J : Json} {sm tm : Str} {s t : Scheme} (hs : TextModel J sm s) (ht : TextModel J tm t) (src tgt : List Str) (n m : Nat)
    (r : Nat × List (List Int)) :
    RecordOf cut s t src tgt n m r ↔ ∃ x y, PairAt src tgt s.ids t.ids r.1 x y ∧ Columns cut n m x y r.2 := by
  constructor
  · rintro ⟨l, l', x, y, h1, h2, h3, h4, h5, h6, h7, h8, h9⟩
    exact ⟨x, y, ⟨l, l', h1, h2, h3, h4, (ids_of_encode h5).symm, (ids_of_encode h6).symm, h7, h8⟩, h9⟩
  · rintro ⟨x, y, ⟨l, l', h1, h2, h3, h4, h5, h6, h7, h8⟩, h9⟩
    obtain ⟨ids, e1, _⟩ := textModel_range hs l
    obtain ⟨ids', e2, _⟩ := textModel_range ht l'
    rw [ids_of_encode e1] at h5
    rw [ids_of_encode e2] at h6
    subst h5 h6
    exact ⟨l, l', _, _, h1, h2, h3, h4, e1, e2, h7, h8, h9⟩

/-! ## C97 -/

/-- C97: `nlcodec-bitextdb` with models of word, char or BPE schemes and two text files with equally many lines, at least one pair of which has
a record, writes a database whose batches, sequential or of equal length, hold the record of every pair, once: its encodings, cut to the limits (or
whole, without truncation, for the pairs shorter than the limits), with their markers.  Missing: empty partitions (C66), tables and texts of a size
beyond 2^53 and 2^64, limits of 0 for batches of equal length, and pairs of exactly the limits without truncation (C63). -/
theorem C97_batches_partial {J : Json} {cl : Cluster Nat} (hcl : cl.Lawful) {ord : List (Nat × Str × Str) → List (Nat × Str × Str)}
    (ho : ∀ l, (ord l).Perm l) {part : List (Nat × List (List Int)) → List (List (Nat × List (List Int)))} (hpart : ∀ l, (part l).flatten.Perm l)
    {args : BitextArgs} {cut : Bool} (htr : args.truncate = cut) {n k : Nat} (hn : args.srcLen = n) (hk : args.tgtLen = k)
    {sm : Str} {tm : Option Str} {s t : Scheme} (hs : TextModel J sm s) (ht : TextModel J (tm.getD sm) t)
    (hss : s.table.length ≤ 2 ^ 53) (hts : t.table.length ≤ 2 ^ 53)
    {st tt : Str} {src tgt : List Str} (hsrc : Lines st src) (htgt : Lines tt tgt) (hlen : src.length = tgt.length)
    (hne : ∃ r, RecordOf cut s t src tgt n k r) (hsize : src.length * (n + k) < 2 ^ 64)
    (hfull : ∀ recs : List (Nat × List (List Int)), (recs.map (·.1)).Nodup → (∀ r, r ∈ recs ↔ RecordOf cut s t src tgt n k r) →
      ∀ c ∈ (if 0 < args.numParts then cl.repart args.numParts.toNat (part recs) else part recs), c ≠ [])
    {dir : Dir Nat} (hdir : dir = none ∨ dir = some [])
    {m : BatchMeta} (sortDec bf keep : Bool) {size : BatchSize} {b : Nat} {c : Option Nat} (hb : Limits size b c) (h0 : c ≠ some 0)
    (hnb : n ≤ b) (hkb : k ≤ b) (hm : ∀ r, RecordOf cut s t src tgt n k r → Markable m r)
    {sortBy : Option Str} (hsort : sortBy = none ∨ sortBy = some (lit "eq_len_rand_batch") ∨ sortBy = some (lit "random"))
    (hnk : sortBy = some (lit "eq_len_rand_batch") → 1 ≤ n ∧ 1 ≤ k) {ch : Chance Nat} (hch : Chance.Fair ch) :
    (bitextCli J cl ord part args sm tm (some st) (some tt) dir).res = .ok () ∧
    ∃ d, runFx (bitextCli J cl ord part args sm tm (some st) (some tt) dir).fx dir = some d ∧
    ∃ recs : List (Nat × List (List Int)), (recs.map (·.1)).Nodup ∧ (∀ r, r ∈ recs ↔ RecordOf cut s t src tgt n k r) ∧
    ∃ data, BatchIterable.init true (.dir d) sortBy keep = .ok data ∧ data.len = recs.length ∧
      ∃ out, BatchIterable.iter m sortDec bf size sortBy ch (some d) data = ⟨out, none⟩ ∧
        BatchesOf m sortDec bf b (if sortBy = some (lit "eq_len_rand_batch") then c.map (· + 1) else c) recs (out.map (·.1)) := by
  obtain ⟨rfl, rfl⟩ : size.maxToks = b ∧ size.maxSents = c := by cases hb <;> exact ⟨rfl, rfl⟩
  have hcli : bitextCli J cl ord part args sm tm (some st) (some tt) dir =
      bitextMain cl ord part src tgt cut n k s.ids t.ids args.numParts dir := by
    cases tm with
    | none =>
      obtain rfl : s = t := by simpa using hs.1.symm.trans ht.1
      simp only [bitextCli, hs.1, sparkRows_spec hsrc, sparkRows_spec htgt, htr, hn, hk]
    | some tm =>
      have := ht.1
      simp only [Option.getD_some] at this
      simp only [bitextCli, hs.1, this, sparkRows_spec hsrc, sparkRows_spec htgt, htr, hn, hk]
  rw [hcli]
  have hrec := recordOf_iff (cut := cut) hs ht src tgt n k
  have hne' : ∃ i x y c, PairAt src tgt s.ids t.ids i x y ∧ Columns cut n k x y c := by
    obtain ⟨r, hr⟩ := hne
    obtain ⟨x, y, h, hc⟩ := (hrec r).1 hr
    exact ⟨_, x, y, _, h, hc⟩
  have hval : ∀ {sm : Str} {s : Scheme}, TextModel J sm s → s.table.length ≤ 2 ^ 53 → ∀ l, ∀ v ∈ s.ids l, v.natAbs ≤ 2 ^ 53 := by
    intro sm s hs hle l v hv
    obtain ⟨ids, e, hr⟩ := textModel_range hs l
    rw [ids_of_encode e] at hv
    have := hr v hv
    omega
  obtain ⟨g1, g2⟩ := C76_bitext_partial hcl ho hpart hlen (srcLen := n) (tgtLen := k) hne' (fun l _ => hval hs hss l) (fun l _ => hval ht hts l) hsize
    (numParts := args.numParts) (by
      intro rows hrows ps hps
      obtain ⟨rows', q1, q2, q3, _⟩ := C63_any ho hlen cut n k s.ids t.ids hne'
      rw [hrows] at q1
      cases q1
      rw [hps]
      refine hfull _ (by rw [List.map_map]; exact q2) fun r => ?_
      rw [hrec]
      constructor
      · intro hr
        obtain ⟨⟨i, x, y⟩, hr', rfl⟩ := List.mem_map.1 hr
        exact (q3 _ _ _).1 hr'
      · rintro ⟨x, y, p1, p2⟩
        obtain ⟨x', y', e⟩ := p2.two
        rw [e] at p2
        refine List.mem_map.2 ⟨(r.1, x', y'), (q3 _ _ _).2 ⟨x, y, p1, p2⟩, ?_⟩
        rw [← e]) hdir
  refine ⟨g1, ?_⟩
  obtain ⟨recs, r3, r4, g3⟩ := g2
  obtain ⟨md, l1, _, l2, l3, l4⟩ := g3 keep
  obtain ⟨d, hd⟩ : ∃ d, runFx (bitextMain cl ord part src tgt cut n k s.ids t.ids args.numParts dir).fx dir = some d := by
    cases hr : runFx (bitextMain cl ord part src tgt cut n k s.ids t.ids args.numParts dir).fx dir with
    | none => rw [hr] at l1; cases l1
    | some d => exact ⟨d, rfl⟩
  rw [hd] at l1 l3 l4
  have hmem : ∀ r, r ∈ recs ↔ RecordOf cut s t src tgt n k r := by
    rintro ⟨i, cols⟩
    rw [hrec]
    exact r4 i cols
  have h2 : ∀ r ∈ recs, r.2.length = 2 := by
    intro r hr
    obtain ⟨_, _, x, y, _, _, _, _, _, _, _, _, hc⟩ := (hmem r).1 hr
    obtain ⟨_, _, e⟩ := hc.two
    rw [e]; rfl
  refine ⟨d, hd, recs, r3, hmem, .multi md, ?_, l2, ?_⟩
  · unfold BatchIterable.init
    rw [if_neg (by rw [not_not]; tauto)]
    simp only [not_true, if_false, l1]
  · unfold BatchIterable.iter
    by_cases he : sortBy = some eqLenName
    · rw [if_pos he, if_pos (show sortBy = some (lit "eq_len_rand_batch") from he)]
      obtain ⟨bs, b1, b2, b3⟩ := l4 (hnk he).1 (hnk he).2 size.maxToks hnb hkb size.maxSents ch.shufP hch.2.2.1 ch.ord hch.2.1 ch.shuf hch.2.2.2.1
        ch.shufB hch.2.2.2.2
      simp only [Data.eqBatches, b1]
      refine eqLenAll_batches h2 (fun r hr _ => hm r ((hmem r).1 hr)) (b2.trans ?_) b3
      rw [List.filter_eq_self.2]
      intro r hr
      obtain ⟨_, _, x, y, _, _, _, _, _, _, n1, n2, hc⟩ := (hmem r).1 hr
      obtain ⟨_, _, e⟩ := hc.two
      rw [e] at hc
      obtain ⟨f1, f2⟩ := hc.full (hnk he).1 (hnk he).2 n1 n2
      rw [decide_eq_true_eq]
      intro c hc
      rw [e] at hc
      simp only [List.mem_cons, List.not_mem_nil, or_false] at hc
      rcases hc with rfl | rfl <;> assumption
    · rw [if_neg he, if_neg (show ¬ sortBy = some (lit "eq_len_rand_batch") from he)]
      obtain ⟨out, o1, o2⟩ := l3 ch.ordI hch.1
      simp only [Data.gen, o1]
      refine readAll_batches h0 h2 o2 ?_
      intro r hr _
      refine ⟨?_, hm r ((hmem r).1 hr)⟩
      rintro ⟨q, hq, hlt⟩
      obtain ⟨_, _, x, y, _, _, _, _, _, _, _, _, hc⟩ := (hmem r).1 hr
      obtain ⟨x', y', e⟩ := hc.two
      rw [e] at hq hc
      have := hc.sub.2.2
      simp only [List.mem_cons, List.not_mem_nil, or_false] at hq
      rcases hq with rfl | rfl <;> omega

/-- the scheme of a model restores the line -/
def Spec.Stands (s : Scheme) (line : Str) : Prop :=
  ∀ ws, Tokens line ws → ∃ ids, s.encode line = .ok ids ∧ s.decode ids = .ok (List.intercalate [32] ws)

/-- what the scheme encodes depends on the words of the line -/
theorem encode_split {s : Scheme} (hk : s.kind = .word ∨ s.kind = .char ∨ s.kind = .bpe) {l l' : Str} (h : split l = split l') :
    s.encode l = s.encode l' := by
  have : s.encodeStr l = s.encodeStr l' := by
    rcases hk with hk | hk | hk <;> simp only [Scheme.encodeStr, hk, h]
    have : bpeText l = bpeText l' := by rw [bpeText, bpeText, split_strip, split_strip, h]
    simp only [bpeIds, this]
  simp only [Scheme.encode, this]

theorem stands_rows {s : Scheme} (hk : s.kind = .word ∨ s.kind = .char ∨ s.kind = .bpe) {text : Str} {ls : List Str} (hl : Lines text ls)
    (h : List.Forall₂ (fun line ws => ∃ ids, s.encode line = .ok ids ∧ s.decode ids = .ok (List.intercalate [32] ws)) (inpLines text) (ls.map split)) :
    ∀ l ∈ ls, Stands s l := by
  have hw : List.Forall₂ Tokens ls (ls.map split) := by
    rw [List.forall₂_map_right_iff, List.forall₂_same]
    exact fun l _ => tokens_split l
  have ht := inpLines_tokens hl hw
  rw [List.forall₂_map_right_iff] at h ht
  intro l hm ws hws
  obtain ⟨i, hi, rfl⟩ := List.mem_iff_getElem.1 hm
  rw [List.forall₂_iff_get] at h ht
  have hi' : i < (inpLines text).length := by rw [h.1]; exact hi
  obtain ⟨ids, e1, e2⟩ := h.2 i hi' hi
  have es := ht.2 i hi' hi
  simp only [List.get_eq_getElem] at e1 e2 es
  refine ⟨ids, ?_, ?_⟩
  · rw [encode_split hk es.symm]; exact e1
  · rw [e2, split_of_tokens hws]

/-- C97: a model that `nlcodec learn` made from a text without the space marker, of words (no minimum frequency above 1, no size limit
or room for all words), of characters (minimum frequency 1, no size limit or room for all characters, `-cv 0`) or BPE (`-cv 0`), restores the lines of that text as `nlcodec-bitextdb` finds them. -/
theorem C97_learned {J : Json} (hJ : JsonLaws J) {ord : Nat → List Nat → List Nat} (hord : ∀ i l, (ord i l).Perm l) {A : Acc} {args : MainArgs A.F}
    (ht : args.task = .learn) (hraw : args.termFreqs = false) (hcov : args.cov = none)
    {text : Str} {ls : List Str} (hl : Lines text ls) {wss : List (List Str)} (hw : List.Forall₂ Tokens ls wss)
    (hlev : args.level = some .word ∧ (args.vocabSize ≤ 0 ∨ 6 + (wss.flatten.dedup.length : Int) ≤ args.vocabSize) ∧ (∀ n, args.minFreq = some n → n ≤ 1) ∨
      args.level = some .char ∧ (args.vocabSize ≤ 0 ∨ 7 + (wss.flatten.flatten.dedup.length : Int) ≤ args.vocabSize) ∧ args.minFreq = some 1 ∨ args.level = some .bpe)
    (hs : ∀ c ∈ text, ¬ (0xD800 ≤ c ∧ c ≤ 0xDFFF)) (hsp : SP ∉ text)
    {model model' : Option Str} {out : Str} (h : mainTask J ord A args model text = (model', out, none)) :
    ∃ m s, model' = some m ∧ TextModel J m s ∧ ∀ l ∈ ls, Stands s l := by
  obtain rfl : wss = ls.map split := by
    clear hlev hl
    induction hw with
    | nil => rfl
    | cons h _ ih => rw [List.map_cons, split_of_tokens h, ← ih]
  have hd := inp_decoded hl hs
  have htok := inp_tokens hl hw
  have htext := (tokens_lines_total hl hw).2
  have hsp' : ∀ ws ∈ ls.map split, ∀ w ∈ ws, SP ∉ w := fun ws hws w hw' hc => hsp (htext ws hws w hw' _ hc)
  rcases hlev with ⟨hlev, hvs, hmf⟩ | ⟨hlev, hvs, hmf⟩ | hlev
  · have hmf' : effMinFreq .word (args.minFreq.getD 0) ≤ 1 := by
      unfold effMinFreq
      cases h : args.minFreq with
      | none => simp
      | some n =>
        have := hmf n h
        simp only [Option.getD_some]
        split
        · simp
        · omega
    obtain ⟨v, s, m, s', g1, g2, g3, g4, g5⟩ := C80_disk hJ A (k := .word) (.inl rfl) hd htok (by simp) hmf' (by simpa using hvs)
    simp only [mainTask, ht, hlev, hraw, learnVocab, g1, LevelName.kind, saveModel_ok g2 g3, Bool.false_eq_true, if_false, Prod.mk.injEq] at h
    have hk : s'.kind = .word := by
      obtain ⟨v', s'', m', k1, k2, _, k4, k5⟩ := C77_learned hJ A (k := .word) (by tauto) hd args.vocabSize (effMinFreq .word (args.minFreq.getD 0)) none (by simp)
      rw [g1] at k1; cases k1; rw [g2] at k2; cases k2; rw [g3] at k4; cases k4; rw [g4] at k5; cases k5
      exact (make_word_ok g2).2.1
    exact ⟨m, s', h.1.symm, ⟨g4, .inl hk⟩, stands_rows (.inl hk) hl g5⟩
  · have hmf' : effMinFreq .char (args.minFreq.getD 0) = 1 := by rw [hmf]; rfl
    obtain ⟨v, s, m, s', g1, g2, g3, g4, g5⟩ := C80_disk hJ A (k := .char) (.inr rfl) hd htok (fun _ => hsp') (mf := 1) (by simp) (by simpa using hvs)
    simp only [mainTask, ht, hlev, hraw, learnVocab, hmf', hcov, g1, LevelName.kind, saveModel_ok g2 g3, Bool.false_eq_true, if_false, Prod.mk.injEq] at h
    have hk : s'.kind = .char := by
      obtain ⟨v', s'', m', k1, k2, _, k4, k5⟩ := C77_learned hJ A (k := .char) (by tauto) hd args.vocabSize 1 none (by simp)
      rw [g1] at k1; cases k1; rw [g2] at k2; cases k2; rw [g3] at k4; cases k4; rw [g4] at k5; cases k5
      exact (make_char_ok g2).2.1
    exact ⟨m, s', h.1.symm, ⟨g4, .inr (.inl hk)⟩, stands_rows (.inr (.inl hk)) hl g5⟩
  · simp only [mainTask, ht, hlev, hraw, learnVocab, Bool.false_eq_true, if_false, LevelName.kind, hcov] at h
    cases hb : bpeLearn ord A (inpLines text) args.vocabSize (effMinFreq .bpe (args.minFreq.getD 0)) none args.minCoEv with
    | error e => rw [hb] at h; simp at h
    | ok vocab =>
      obtain ⟨s, m, h1, _, h3, h4⟩ := C77_learned_bpe hJ hord hd (by simp) hb
      obtain ⟨s', k1, k2⟩ := C80_bpe hord htok hsp' hb
      rw [h1] at k1; cases k1
      rw [hb] at h
      simp only [saveModel_ok h1 h3, Prod.mk.injEq] at h
      have hk := (make_bpe_ok h1).2.1
      exact ⟨m, s, h.1.symm, ⟨h4, .inr (.inr hk)⟩, stands_rows (.inr (.inr hk)) hl k2⟩

/-- C97: if the models restore the lines, and no line is cut, the records of the database decode to the lines, up to white space; and every
pair of lines with words has one, without truncation if it is shorter than the limits. -/
theorem C97_decoded {cut : Bool} {s t : Scheme} {src tgt : List Str} (hs : ∀ l ∈ src, Stands s l) (ht : ∀ l ∈ tgt, Stands t l) {n k : Nat} :
    ((cut = true → (∀ l ∈ src, ∀ x, s.encode l = .ok x → x.length ≤ n) ∧ ∀ l ∈ tgt, ∀ y, t.encode l = .ok y → y.length ≤ k) → ∀ r, RecordOf cut s t src tgt n k r → ∃ l l' ws ws' x y, src[r.1]? = some l ∧ tgt[r.1]? = some l' ∧ Tokens l ws ∧ Tokens l' ws' ∧ r.2 = [x, y] ∧
      s.decode x = .ok (List.intercalate [32] ws) ∧ t.decode y = .ok (List.intercalate [32] ws')) ∧
    ∀ i l l' ws ws', src[i]? = some l → tgt[i]? = some l' → Tokens l ws → Tokens l' ws' → ws ≠ [] → ws' ≠ [] →
      (cut = false → (∀ x, s.encode l = .ok x → x.length < n) ∧ ∀ y, t.encode l' = .ok y → y.length < k) → ∃ cols, RecordOf cut s t src tgt n k (i, cols) := by
  constructor
  · rintro hcut r ⟨l, l', x, y, h1, h2, h3, h4, h5, h6, h7, h8, h9⟩
    have m1 := List.mem_of_getElem? h1
    have m2 := List.mem_of_getElem? h2
    obtain ⟨ids, e1, e2⟩ := hs l m1 _ (tokens_split l)
    obtain ⟨ids', e1', e2'⟩ := ht l' m2 _ (tokens_split l')
    rw [h5] at e1; cases e1
    rw [h6] at e1'; cases e1'
    have h9' : r.2 = [x, y] := by
      cases cut with
      | true =>
        obtain ⟨hn, hk⟩ := hcut rfl
        have h : r.2 = [x.take n, y.take k] := h9
        rwa [List.take_of_length_le (hn l m1 x h5), List.take_of_length_le (hk l' m2 y h6)] at h
      | false => exact h9.1
    exact ⟨l, l', _, _, x, y, h1, h2, tokens_split l, tokens_split l', h9', e2, e2'⟩
  · intro i l l' ws ws' h1 h2 h3 h4 h5 h6 hshort
    have key : ∀ {s : Scheme} {l : Str} {ws : List Str}, Stands s l → Tokens l ws → ws ≠ [] → l ≠ [] ∧ ∃ x, s.encode l = .ok x ∧ x ≠ [] := by
      intro s l ws hst htk hne
      obtain ⟨x, e1, e2⟩ := hst ws htk
      obtain ⟨w, ws, rfl⟩ := List.exists_cons_of_ne_nil hne
      obtain ⟨hw, _⟩ := tokens_isToken (.cons htk .nil) (w :: ws) (by simp) w (by simp)
      obtain ⟨c, w, rfl⟩ := List.exists_cons_of_ne_nil hw
      refine ⟨?_, x, e1, ?_⟩
      · rintro rfl
        have := (mem_of_tokens htk (c :: w) (by simp) c (by simp)).1
        simp at this
      · rintro rfl
        have : s.decode [] = .ok [] := by
          simp only [Scheme.decode, namesOf]
          unfold Scheme.decodeStr
          cases s.kind <;> rfl
        rw [this] at e2
        cases ws <;> simp [List.intercalate] at e2
    obtain ⟨g1, x, g2, g3⟩ := key (hs l (List.mem_of_getElem? h1)) h3 h5
    obtain ⟨k1, y, k2, k3⟩ := key (ht l' (List.mem_of_getElem? h2)) h4 h6
    cases cut with
    | true => exact ⟨_, l, l', x, y, h1, h2, g1, k1, g2, k2, g3, k3, rfl⟩
    | false =>
      obtain ⟨hx, hy⟩ := hshort rfl
      exact ⟨_, l, l', x, y, h1, h2, g1, k1, g2, k2, g3, k3, rfl, hx x g2, hy y k2⟩

/-- C97 is false of the names of the columns: `--src-col` and `--tgt-col` are accepted and not used; the columns are `x` and `y` (C76). -/
theorem C97_columns_refuted (J : Json) (cl : Cluster Nat) (ord : List (Nat × Str × Str) → List (Nat × Str × Str))
    (part : List (Nat × List (List Int)) → List (List (Nat × List (List Int)))) (args : BitextArgs) (a b : Str) (sm : Str) (tm st tt : Option Str)
    (dir : Dir Nat) :
    bitextCli J cl ord part { args with srcCol := a, tgtCol := b } sm tm st tt dir = bitextCli J cl ord part args sm tm st tt dir := rfl

/-- C97, failures: if a text is missing, or a model cannot be loaded, the command ends with an exception and touches no file. -/
theorem C97_missing (J : Json) (cl : Cluster Nat) (ord : List (Nat × Str × Str) → List (Nat × Str × Str))
    (part : List (Nat × List (List Int)) → List (List (Nat × List (List Int)))) (args : BitextArgs) {sm : Str} {tm st tt : Option Str} (dir : Dir Nat)
    (h : st = none ∨ tt = none ∨ (∀ s, loadScheme J sm ≠ .ok s) ∨ ∃ m, tm = some m ∧ ∀ s, loadScheme J m ≠ .ok s) :
    ∃ e, bitextCli J cl ord part args sm tm st tt dir = ⟨[], .error e⟩ := by
  unfold bitextCli
  cases st with
  | none => exact ⟨_, rfl⟩
  | some st =>
    cases tt with
    | none => exact ⟨_, rfl⟩
    | some tt =>
      dsimp only
      cases hs : loadScheme J sm with
      | error e => exact ⟨e, rfl⟩
      | ok s =>
        obtain ⟨m, rfl, hm⟩ : ∃ m, tm = some m ∧ ∀ s, loadScheme J m ≠ .ok s := by
          rcases h with h | h | h | h
          · cases h
          · cases h
          · exact absurd hs (h s)
          · exact h
        dsimp only
        cases ht : loadScheme J m with
        | error e => exact ⟨e, rfl⟩
        | ok t => exact absurd ht (hm t)

/-- a model without header cannot be loaded -/
example : (∀ s, loadScheme pyJson (lit "0\ta\t0\t1\t\n") ≠ .ok s) ∧
    (bitextCli pyJson exCluster id (fun l => [l]) {} (lit "0\ta\t0\t1\t\n") none (some (lit "a\n")) (some (lit "b\n")) none).fx.length = 0 := by
  have h : (match loadScheme pyJson (lit "0\ta\t0\t1\t\n") with
    | .ok _ => false
    | .error _ => true) = true := by decide +kernel
  refine ⟨fun s e => ?_, by decide +kernel⟩
  rw [e] at h
  cases h

/-- a BPE model is learned from the source, a word model from the target; the second pair has no source and is left out; the two others come in
a batch, with the marker 2 at the end and padded with 0 -/
example : (match mainTask pyJson ordId accExact { task := .learn, level := some .bpe, cov := none, vocabSize := 9, minCoEv := 1 } none (lit "ab ab\n\nab\n") with
    | (some sm, _, none) => match mainTask pyJson ordId accExact { task := .learn, level := some .word, cov := none } none (lit "u\r\nv\r\nw u\r\n") with
      | (some tm, _, none) => match bitextCli pyJson exCluster List.reverse (fun l => [l]) {} sm (some tm) (some (lit "ab ab\n\nab\n"))
            (some (lit "u\r\nv\r\nw u\r\n")) none with
        | ⟨fx, .ok ()⟩ => match runFx fx none with
          | some d => match BatchIterable.init true (.dir d) none false with
            | .ok data => decide (((BatchIterable.iter exMeta false true (.toks 256) none ⟨fun _ => id, fun _ => id, id, fun _ => id, fun _ => id⟩
                (some d) data).out.map fun o => (o.1.x.seqs, o.1.y.map (·.seqs))) =
                [([[8, 5, 2, 0, 0], [8, 5, 8, 5, 2]], some [[8, 6, 2], [6, 2, 0]])])
            | _ => false
          | _ => false
        | _ => false
      | _ => false
    | _ => false) = true := by decide +kernel

/-- without truncation the pair of four source pieces is dropped when the limit is four -/
example : (match mainTask pyJson ordId accExact { task := .learn, level := some .bpe, cov := none, vocabSize := 9, minCoEv := 1 } none (lit "ab ab\n\nab\n") with
    | (some sm, _, none) => match mainTask pyJson ordId accExact { task := .learn, level := some .word, cov := none } none (lit "u\r\nv\r\nw u\r\n") with
      | (some tm, _, none) => match bitextCli pyJson exCluster List.reverse (fun l => [l]) { truncate := false, srcLen := 4, tgtLen := 4 } sm (some tm) (some (lit "ab ab\n\nab\n"))
            (some (lit "u\r\nv\r\nw u\r\n")) none with
        | ⟨fx, .ok ()⟩ => match runFx fx none with
          | some d => match BatchIterable.init true (.dir d) none false with
            | .ok data => decide (((BatchIterable.iter exMeta false true (.toks 256) none ⟨fun _ => id, fun _ => id, id, fun _ => id, fun _ => id⟩
                (some d) data).out.map fun o => (o.1.x.seqs, o.1.y.map (·.seqs))) =
                [([[8, 5, 2]], some [[8, 6, 2]])])
            | _ => false
          | _ => false
        | _ => false
      | _ => false
    | _ => false) = true := by decide +kernel

/-- the same in batches of equal length -/
example : (match mainTask pyJson ordId accExact { task := .learn, level := some .bpe, cov := none, vocabSize := 9, minCoEv := 1 } none (lit "ab ab\n\nab\n") with
    | (some sm, _, none) => match mainTask pyJson ordId accExact { task := .learn, level := some .word, cov := none } none (lit "u\r\nv\r\nw u\r\n") with
      | (some tm, _, none) => match bitextCli pyJson exCluster List.reverse (fun l => [l]) {} sm (some tm) (some (lit "ab ab\n\nab\n"))
            (some (lit "u\r\nv\r\nw u\r\n")) none with
        | ⟨fx, .ok ()⟩ => match runFx fx none with
          | some d => match BatchIterable.init true (.dir d) (some (lit "eq_len_rand_batch")) false with
            | .ok data => decide (((BatchIterable.iter exMeta false true (.toks 256) (some (lit "eq_len_rand_batch")) ⟨fun _ => id, fun _ => id, id, fun _ => id, fun _ => id⟩
                (some d) data).out.map fun o => (o.1.x.seqs, o.1.y.map (·.seqs))) =
                [([[8, 5, 2, 0, 0], [8, 5, 8, 5, 2]], some [[8, 6, 2], [6, 2, 0]])])
            | _ => false
          | _ => false
        | _ => false
      | _ => false
    | _ => false) = true := by decide +kernel

end Verif
