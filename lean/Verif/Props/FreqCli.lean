import Verif.Model.FreqCli
import Verif.Props.Main
/-!
# Properties C94 and C95: the command `nlcodec-freq`
-/

namespace Verif
open Spec

/-! ## Specification -/

/-- the input files of `-i` -/
def Spec.FreqOpt.paths : FreqOpt → Option (List Str)
  | .inp ps => some ps
  | _ => none

/-- the file of `-wf` -/
def Spec.FreqOpt.wordFile : FreqOpt → Option Str
  | .words p => some p
  | _ => none

/-- the file of `-cf` -/
def Spec.FreqOpt.charFile : FreqOpt → Option Str
  | .chars p => some p
  | _ => none

/-- `-dd` and `-ndd` -/
def Spec.FreqOpt.flag : FreqOpt → Option Bool
  | .dedup => some true
  | .noDedup => some false
  | _ => none

/-- every file named as an output -/
def Spec.outputs (opts : List FreqOpt) : List Str := opts.filterMap FreqOpt.wordFile ++ opts.filterMap FreqOpt.charFile

/-- `text` is a table of frequencies that is read back as the counts of the elements of `l`, and the number `n` of lines -/
def Spec.TableOf (J : Json) (l : List Str) (n : Int) (text : Str) : Prop :=
  ∃ d, readTermFreqs J (fileLines text) = .ok (d, n) ∧ (Dict.keys d).Nodup ∧ ∀ w f, (w, f) ∈ d ↔ w ∈ l ∧ f = l.count w

/-! ## Lemmas -/

theorem parseFreq_spec (opts : List FreqOpt) (fs : Files) :
    (parseFreq opts fs).1.inp = (opts.filterMap FreqOpt.paths).getLast? ∧
    (parseFreq opts fs).1.words = (opts.filterMap FreqOpt.wordFile).getLast? ∧
    (parseFreq opts fs).1.chars = (opts.filterMap FreqOpt.charFile).getLast? ∧
    (parseFreq opts fs).1.dedup = (opts.filterMap FreqOpt.flag).getLast?.getD true ∧
    ∀ q, (parseFreq opts fs).2 q = if q ∈ outputs opts then some [] else fs q := by
  induction opts using List.reverseRecOn with
  | nil => simp [parseFreq, outputs]
  | append_singleton opts o ih =>
    have e : parseFreq (opts ++ [o]) fs = o.parse (parseFreq opts fs) := by simp [parseFreq]
    obtain ⟨h1, h2, h3, h4, h5⟩ := ih
    rw [e]
    cases o with
    | inp ps => simp_all [FreqOpt.parse, List.filterMap_append, outputs, FreqOpt.paths, FreqOpt.wordFile, FreqOpt.charFile, FreqOpt.flag]
    | words p =>
      refine ⟨?_, ?_, ?_, ?_, fun q => ?_⟩
      all_goals simp_all [FreqOpt.parse, List.filterMap_append, outputs, FreqOpt.paths, FreqOpt.wordFile, FreqOpt.charFile, FreqOpt.flag, Files.put]
      by_cases hq : q = p
      · simp [hq]
      · simp [hq]
    | chars p =>
      refine ⟨?_, ?_, ?_, ?_, fun q => ?_⟩
      all_goals simp_all [FreqOpt.parse, List.filterMap_append, outputs, FreqOpt.paths, FreqOpt.wordFile, FreqOpt.charFile, FreqOpt.flag, Files.put]
      by_cases hq : q = p
      · simp [hq]
      · simp [hq]
    | dedup => simp_all [FreqOpt.parse, List.filterMap_append, outputs, FreqOpt.paths, FreqOpt.wordFile, FreqOpt.charFile, FreqOpt.flag]
    | noDedup => simp_all [FreqOpt.parse, List.filterMap_append, outputs, FreqOpt.paths, FreqOpt.wordFile, FreqOpt.charFile, FreqOpt.flag]

theorem fileLines_cons {l : Str} (h : 10 ∉ l) (r : Str) : fileLines (l ++ 10 :: r) = l :: fileLines r := by
  have hp : splitOn (· == 10) (l ++ 10 :: r) = l :: splitOn (· == 10) r :=
    splitOn_append_sep (p := (· == 10)) (fun c hc => by simpa using fun e : c = 10 => h (e ▸ hc)) (by decide)
  have hn := splitOn_ne_nil (· == 10) r
  unfold fileLines
  simp only [hp]
  obtain ⟨x, xs, hx⟩ := List.exists_cons_of_ne_nil hn
  rw [hx, List.getLast?_cons_cons, List.dropLast_cons_cons]
  split <;> simp

theorem sparkRows_spec {text : Str} {ls : List Str} (h : Lines text ls) : sparkRows text = ls := by
  unfold sparkRows
  induction h with
  | nil => rfl
  | @last l hne hb =>
    rw [univNewlines_id hb.2, fileLines, splitOn_clean (fun c hc => by simpa using fun e : c = 10 => hb.1 (e ▸ hc))]
    simp [hne]
  | @lf l r ls hb _ ih =>
    rw [univNewlines_append hb.2, show univNewlines (10 :: r) = 10 :: univNewlines r by simp [univNewlines], fileLines_cons hb.1, ih]
  | @crlf l r ls hb _ ih =>
    rw [univNewlines_append hb.2, show univNewlines (13 :: 10 :: r) = 10 :: univNewlines r by simp [univNewlines], fileLines_cons hb.1, ih]
  | @cr l r ls hb hr _ ih =>
    have : univNewlines (13 :: r) = 10 :: univNewlines r := by
      cases r with
      | nil => simp [univNewlines]
      | cons c r =>
        have : c ≠ 10 := by simpa using hr
        rw [univNewlines]
        intro r' e
        cases e
        exact this rfl
    rw [univNewlines_append hb.2, this, fileLines_cons hb.1, ih]

theorem readTexts_ok {fs : Files} {paths : List Str} {lss : List (List Str)}
    (h : List.Forall₂ (fun p ls => ∃ t, fs p = some t ∧ Lines t ls) paths lss) : readTexts fs paths = .ok lss := by
  induction h with
  | nil => rfl
  | cons h _ ih =>
    obtain ⟨t, h1, h2⟩ := h
    rw [readTexts, h1]
    simp only [ih, sparkRows_spec h2]

/-! ## C94 -/

/-- C94: the last options count, and without `-ndd` lines are counted once.  If all input files can be read, are not outputs too, and hold a
line, none of them with the word `<!S!>`, the tables are read back as the exact counts of words and of their characters, and other files
are left alone.  Missing: `<!S!>` and empty input (C64), one file for both tables, and inputs that are outputs (`C94_own_input_refuted`). -/
theorem C94_exact_partial {J : Json} (hJ : JsonLaws J) {R1 R2 : Reduction Str Int} (h1 : R1.Lawful) (h2 : R2.Lawful)
    {distinct : List Str → List Str} (hd : ∀ l, (distinct l).Nodup ∧ ∀ x, x ∈ distinct l ↔ x ∈ l) {opts : List FreqOpt} {fs : Files}
    {paths : List Str} (hi : (opts.filterMap FreqOpt.paths).getLast? = some paths) {lss : List (List Str)}
    (hr : List.Forall₂ (fun p ls => p ∉ outputs opts ∧ ∃ t, fs p = some t ∧ Lines t ls) paths lss) {lines : List Str} {toks : List (List Str)}
    (hc : Counted ((opts.filterMap FreqOpt.flag).getLast?.getD true) lss lines) (ht : List.Forall₂ Tokens lines toks) (hne : lines ≠ [])
    (htag : lit "<!S!>" ∉ toks.flatten) (hdiff : (opts.filterMap FreqOpt.wordFile).getLast? ≠ (opts.filterMap FreqOpt.charFile).getLast?) :
    ∃ fs', freqMain R1 R2 distinct J opts fs = (fs', none) ∧ (∀ p, p ∉ outputs opts → fs' p = fs p) ∧
      (∀ p, (opts.filterMap FreqOpt.wordFile).getLast? = some p → ∃ text, fs' p = some text ∧ TableOf J toks.flatten lines.length text) ∧
      ∀ p, (opts.filterMap FreqOpt.charFile).getLast? = some p → ∃ text, fs' p = some text ∧
        TableOf J (toks.flatten.flatten.map fun c => [c]) lines.length text := by
  obtain ⟨p1, p2, p3, p4, p5⟩ := parseFreq_spec opts fs
  obtain ⟨wf, cf, dw, dc, w1, w2, w3, w4, w5, w6, w7⟩ := stats_read hJ h1 h2 hd hc ht hne htag
  have hread : readTexts (parseFreq opts fs).2 paths = .ok lss := by
    refine readTexts_ok (hr.imp fun p ls => ?_)
    rintro ⟨g1, t, g2, g3⟩
    exact ⟨t, by rw [p5, if_neg g1]; exact g2, g3⟩
  have hout : ¬ ((parseFreq opts fs).1.words = none ∧ (parseFreq opts fs).1.chars = none) := by
    rw [p2, p3]
    rintro ⟨g1, g2⟩
    exact hdiff (g1.trans g2.symm)
  have hw : TableOf J toks.flatten lines.length (writeStats J wf (some lines.length)) := by
    refine ⟨dw, w3, (w4.map _).nodup_iff.2 (termFrequencies_nodup _ _), fun w f => ?_⟩
    rw [w4.mem_iff, C15_counts lines toks ht (k := .word) (Or.inl rfl)]
    simp only [if_true]
    rw [show toks.flatMap (fun ws => ws) = toks.flatten from List.flatMap_id]
  have hch : TableOf J (toks.flatten.flatten.map fun c => [c]) lines.length (writeStats J cf (some lines.length)) := by
    refine ⟨dc, w5, w6, fun w f => ?_⟩
    have hcc : ∀ (l : List Nat) (c : Nat), (l.map fun c => [c]).count [c] = l.count c := by
      intro l c
      induction l with
      | nil => rfl
      | cons a l ih => simp only [List.map_cons, List.count_cons, ih, beq_iff_eq, List.cons.injEq, and_true]
    rw [w7]
    constructor
    · rintro ⟨c, rfl, g2, g3⟩
      exact ⟨List.mem_map.2 ⟨c, g2, rfl⟩, by rw [g3, hcc]⟩
    · rintro ⟨g1, g2⟩
      obtain ⟨c, g3, rfl⟩ := List.mem_map.1 g1
      exact ⟨c, rfl, g3, by rw [g2, hcc]⟩
  have hmain : freqMain R1 R2 distinct J opts fs =
      ((match (parseFreq opts fs).1.chars with
        | none => (match (parseFreq opts fs).1.words with
          | none => (parseFreq opts fs).2
          | some p => (parseFreq opts fs).2.put p (writeStats J wf (some lines.length)))
        | some p => (match (parseFreq opts fs).1.words with
          | none => (parseFreq opts fs).2
          | some p => (parseFreq opts fs).2.put p (writeStats J wf (some lines.length))).put p (writeStats J cf (some lines.length))), none) := by
    unfold freqMain
    simp only [hout, if_false, p1, hi, hread, p4, w1]
    cases (parseFreq opts fs).1.chars <;> rfl
  rw [hmain, p2, p3]
  refine ⟨_, rfl, ?_, ?_, ?_⟩
  · intro p hp
    have hpw : (opts.filterMap FreqOpt.wordFile).getLast? ≠ some p := fun e => hp (List.mem_append_left _ (List.mem_of_getLast? e))
    have hpc : (opts.filterMap FreqOpt.charFile).getLast? ≠ some p := fun e => hp (List.mem_append_right _ (List.mem_of_getLast? e))
    have hb : (parseFreq opts fs).2 p = fs p := by rw [p5, if_neg hp]
    cases hx : (opts.filterMap FreqOpt.wordFile).getLast? with
    | none => cases hy : (opts.filterMap FreqOpt.charFile).getLast? with
      | none => exact hb
      | some q =>
        have : p ≠ q := fun e => hpc (by rw [hy, e])
        simp [Files.put, this, hb]
    | some q' =>
      have hq' : p ≠ q' := fun e => hpw (by rw [hx, e])
      cases hy : (opts.filterMap FreqOpt.charFile).getLast? with
      | none => simp [Files.put, hq', hb]
      | some q =>
        have : p ≠ q := fun e => hpc (by rw [hy, e])
        simp [Files.put, hq', this, hb]
  · intro p hp
    refine ⟨_, ?_, hw⟩
    rw [hp] at hdiff ⊢
    cases hy : (opts.filterMap FreqOpt.charFile).getLast? with
    | none => simp [Files.put]
    | some q =>
      have : p ≠ q := fun e => hdiff (by rw [hy, e])
      simp [Files.put, this]
  · intro p hp
    refine ⟨_, ?_, hch⟩
    rw [hp]
    simp [Files.put]

/-- C94 is false for runs that fail: the tables of an earlier run are empty afterwards, because argparse opens the outputs while it reads the
options; so it is with a missing input file, without input files, and with an empty input file. -/
theorem C94_truncated_refuted {R1 R2 : Reduction Str Int} (h1 : R1.Lawful) {distinct : List Str → List Str}
    (hd : ∀ l, (distinct l).Nodup ∧ ∀ x, x ∈ distinct l ↔ x ∈ l) (J : Json) {fs : Files} {i w : Str} (hne : i ≠ w) :
    freqMain R1 R2 distinct J [.words w] fs = (fs.put w [], some .type) ∧
    (fs i = none → freqMain R1 R2 distinct J [.inp [i], .words w] fs = (fs.put w [], some .fileNotFound)) ∧
    (fs i = some [] → freqMain R1 R2 distinct J [.inp [i], .words w] fs = (fs.put w [], some .key)) := by
  refine ⟨rfl, fun h => ?_, fun h => ?_⟩
  · have : (fs.put w []) i = none := by simp [Files.put, hne, h]
    simp only [freqMain, parseFreq, List.foldl_cons, List.foldl_nil, FreqOpt.parse, readTexts, this]
    rfl
  · have : (fs.put w []) i = some [] := by simp [Files.put, hne, h]
    have he := (C64_empty_refuted (R2 := R2) h1 hd true).2 0
    simp only [freqMain, parseFreq, List.foldl_cons, List.foldl_nil, FreqOpt.parse, readTexts, this, show sparkRows [] = [] from rfl]
    rw [show List.replicate (0 + 1) ([] : List Str) = [[]] from rfl] at he
    rw [he]
    rfl

/-- C94 is false if an input file is an output file too: it is empty when it is read. -/
theorem C94_own_input_refuted {R1 R2 : Reduction Str Int} (h1 : R1.Lawful) {distinct : List Str → List Str}
    (hd : ∀ l, (distinct l).Nodup ∧ ∀ x, x ∈ distinct l ↔ x ∈ l) (J : Json) (fs : Files) (p : Str) :
    freqMain R1 R2 distinct J [.inp [p], .words p] fs = (fs.put p [], some .key) := by
  have : (fs.put p []) p = some [] := by simp [Files.put]
  have he := (C64_empty_refuted (R2 := R2) h1 hd true).2 0
  simp only [freqMain, parseFreq, List.foldl_cons, List.foldl_nil, FreqOpt.parse, readTexts, this, show sparkRows [] = [] from rfl]
  rw [show List.replicate (0 + 1) ([] : List Str) = [[]] from rfl] at he
  rw [he]
  rfl

/-- no output: the assertion comes before anything else -/
theorem C94_no_output (R1 R2 : Reduction Str Int) (distinct : List Str → List Str) (J : Json) {opts : List FreqOpt} (h : outputs opts = []) (fs : Files) :
    freqMain R1 R2 distinct J opts fs = (fs, some .assertion) := by
  obtain ⟨_, p2, p3, _, p5⟩ := parseFreq_spec opts fs
  obtain ⟨g1, g2⟩ := List.append_eq_nil_iff.1 h
  rw [g1] at p2
  rw [g2] at p3
  have e : (parseFreq opts fs).2 = fs := funext fun q => by rw [p5, h]; simp
  have hn : (parseFreq opts fs).1.words = none ∧ (parseFreq opts fs).1.chars = none := ⟨p2, p3⟩
  simp only [freqMain, hn, and_self, if_true, e]

/-- files of the examples -/
def exFiles : Files := fun p => if p = lit "t" then some (lit "b a\r\na\nb a\n") else if p = lit "w" then some (lit "old") else none

/-- the line "b a" is counted once without `-ndd`; the last of `-dd` and `-ndd` counts; both tables are written -/
example : (freqMain exRed exRed List.dedup pyJson [.words (lit "w"), .inp [lit "t"]] exFiles).1 (lit "w") =
      some (lit "#{\"version\": \"0.2\", \"line_count\": 2}\na\t2\nb\t1\n") ∧
    (freqMain exRed exRed List.dedup pyJson [.noDedup, .inp [lit "t"], .chars (lit "c"), .words (lit "w")] exFiles).1 (lit "w") =
      some (lit "#{\"version\": \"0.2\", \"line_count\": 3}\na\t3\nb\t2\n") ∧
    (freqMain exRed exRed List.dedup pyJson [.noDedup, .inp [lit "t"], .chars (lit "c"), .words (lit "w")] exFiles).1 (lit "c") =
      some (lit "#{\"version\": \"0.2\", \"line_count\": 3}\na\t3\nb\t2\n") ∧
    (freqMain exRed exRed List.dedup pyJson [.noDedup, .inp [lit "t"], .chars (lit "c"), .dedup] exFiles).1 (lit "c") =
      some (lit "#{\"version\": \"0.2\", \"line_count\": 2}\na\t2\nb\t1\n") := by decide +kernel
example : Lines (lit "b a\r\na\nb a\n") [lit "b a", lit "a", lit "b a"] :=
  .crlf (l := lit "b a") (r := lit "a\nb a\n") (by decide) (.lf (l := lit "a") (r := lit "b a\n") (by decide) (.lf (l := lit "b a") (r := []) (by decide) .nil))

/-! ## C95 -/

theorem rstripNL_row {r : Str} (h : 10 ∉ r) : rstripP (· == 10) (r ++ [10]) = rstripP (· == 10) r := by
  rw [rstripNL_id h]
  unfold rstripP
  rw [List.reverse_append]
  simp only [List.reverse_singleton, List.singleton_append]
  have := rstripNL_id h
  unfold rstripP at this
  simpa using this

theorem readFreqRows_nl : ∀ (rows : List Str) (d : Dict Str Int), (∀ r ∈ rows, 10 ∉ r) →
    readFreqRows d (rows.map (· ++ [10])) = readFreqRows d rows := by
  intro rows
  induction rows with
  | nil => intro d _; rfl
  | cons r rows ih =>
    intro d h
    rw [List.map_cons, readFreqRows, readFreqRows, rstripNL_row (h r (by simp))]
    split
    · split
      · rfl
      · exact ih _ fun r hr => h r (by simp [hr])
    · rfl

theorem readTermFreqs_nl (J : Json) (rows : List Str) (h : ∀ r ∈ rows, 10 ∉ r) :
    readTermFreqs J (rows.map (· ++ [10])) = readTermFreqs J rows := by
  cases rows with
  | nil => rfl
  | cons r rows =>
    have e1 := readFreqRows_nl rows [] fun r hr => h r (by simp [hr])
    have e2 := readFreqRows_nl (r :: rows) [] h
    rw [List.map_cons] at e2 ⊢
    simp only [readTermFreqs, rstripNL_row (h r (by simp)), e1, e2]

/-- a table of frequencies is read the same by `nlcodec` and by `nlcodec-learn` -/
theorem learnTf_inp {J : Json} (hJ : JsonLaws J) {ord : Nat → List Nat → List Nat} {A : Acc} {stats : Dict Str Int} (hs : ∀ p ∈ stats, IsToken p.1)
    (n : Int) (level : LevelName) (vs mf : Int) (cov : Option A.F) (ev : Int) :
    learnTf J ord A level (inpLines (writeStats J stats (some n))) vs mf cov ev =
      learnTf J ord A level (fileLines (writeStats J stats (some n))) vs mf cov ev := by
  have hperm := sortByFreq_perm stats
  have hpl : ({ lineCount := some n } : Header).Plain := ⟨rfl, by intro n hn; cases hn⟩
  have htext : writeStats J stats (some n) = ((35 :: J.dumps { lineCount := some n }) ::
      (sortByFreq stats).map fun p => p.1 ++ 9 :: intStr p.2).flatMap (· ++ [10]) := by
    rw [writeStats, statRows_eq, List.flatMap_cons]; simp
  have hb : ∀ l ∈ (35 :: J.dumps { lineCount := some n }) :: (sortByFreq stats).map fun p => p.1 ++ 9 :: intStr p.2, NoBreak l := by
    intro l hl
    rcases List.mem_cons.1 hl with rfl | hl
    · constructor <;> intro hc <;> rcases List.mem_cons.1 hc with hc | hc
      · omega
      · have := hJ.ascii _ hpl _ hc; omega
      · omega
      · have := hJ.ascii _ hpl _ hc; omega
    · obtain ⟨p, hp, rfl⟩ := List.mem_map.1 hl
      have ht := hs p (hperm.subset hp)
      constructor <;> simp only [List.mem_append, List.mem_cons, not_or]
      · exact ⟨fun hc => absurd (ht.2 _ hc) (by decide), by omega, fun hc => by have := intStr_chars _ _ hc; omega⟩
      · exact ⟨fun hc => absurd (ht.2 _ hc) (by decide), by omega, fun hc => by have := intStr_chars _ _ hc; omega⟩
  have e : readTermFreqs J (inpLines (writeStats J stats (some n))) = readTermFreqs J (fileLines (writeStats J stats (some n))) := by
    rw [htext, inpLines_rows _ hb, fileLines_rows _ fun l hl => (hb l hl).1, readTermFreqs_nl J _ fun l hl => (hb l hl).1]
  cases level <;> simp only [learnTf, learnFromStats, e]

/-- C95: `nlcodec-freq` followed by `nlcodec learn -tfs` on the table (of characters for the level char, of words otherwise) leaves the model
that a first run of `nlcodec-learn` with the same inputs and options leaves, or fails in the same way; for inputs with a line. -/
theorem C95_two_steps {J : Json} (hJ : JsonLaws J) {R1 R2 : Reduction Str Int} (h1 : R1.Lawful) (h2 : R2.Lawful)
    {distinct : List Str → List Str} (hd : ∀ l, (distinct l).Nodup ∧ ∀ x, x ∈ distinct l ↔ x ∈ l) {ord : Nat → List Nat → List Nat} {A : Acc}
    {opts : List FreqOpt} {fs : Files} {paths : List Str} (hi : (opts.filterMap FreqOpt.paths).getLast? = some paths) {lss : List (List Str)}
    (hr : List.Forall₂ (fun p ls => p ∉ outputs opts ∧ ∃ t, fs p = some t ∧ Lines t ls) paths lss) (hne : lss.flatten ≠ [])
    {args : LearnArgs A.F} (hfiles : args.files = lss) (hdd : args.dedup = (opts.filterMap FreqOpt.flag).getLast?.getD true)
    {lf : LearnFiles} (hlf : lf.stats args.level = none) {m : MainArgs A.F} (ht : m.task = .learn) (htf : m.termFreqs = true)
    (hlev : m.level = some args.level) (hvs : m.vocabSize = args.vocabSize) (hmf : m.minFreq.getD 0 = args.minFreq) (hcov : m.cov = args.cov)
    (hev : m.minCoEv = args.minCoEv) (hdiff : (opts.filterMap FreqOpt.wordFile).getLast? ≠ (opts.filterMap FreqOpt.charFile).getLast?)
    {p : Str} (hp : (if args.level = .char then opts.filterMap FreqOpt.charFile else opts.filterMap FreqOpt.wordFile).getLast? = some p) :
    ∃ fs' text, freqMain R1 R2 distinct J opts fs = (fs', none) ∧ fs' p = some text ∧
      mainTask J ord A m lf.model text = ((learnMain R1 R2 distinct J ord A args lf).1.model, [],
        match (learnMain R1 R2 distinct J ord A args lf).2 with
        | .ok () => none
        | .error e => some e) := by
  obtain ⟨p1, p2, p3, p4, p5⟩ := parseFreq_spec opts fs
  obtain ⟨lines, hc⟩ : ∃ lines, Counted args.dedup lss lines := by
    unfold Counted
    cases args.dedup with
    | true => exact ⟨distinct lss.flatten, (hd _).1, (hd _).2⟩
    | false => exact ⟨lss.flatten, List.Perm.refl _⟩
  have hlne : lines ≠ [] := by
    rintro rfl
    obtain ⟨x, xs, hx⟩ := List.exists_cons_of_ne_nil hne
    unfold Counted at hc
    split at hc
    · have := (hc.2 x).2 (by rw [hx]; simp)
      simp at this
    · exact hne hc.symm.eq_nil
  have htk : List.Forall₂ Tokens lines (lines.map split) := by
    clear hc hlne
    induction lines with
    | nil => exact .nil
    | cons l ls ih => exact .cons (tokens_split l) ih
  obtain ⟨wf, cf, w1, w2, w3, w4, w5⟩ := C64_counts_partial h1 h2 hd hc htk hlne rfl
  generalize ((lines.length : Int) + (lines.map split).flatten.count (lit "<!S!>")) = n at w1
  have htoks : ∀ w ∈ (lines.map split).flatten.filter (fun w => w ≠ lit "<!S!>"), IsToken w := by
    intro w hw
    obtain ⟨ws, hws, hww⟩ := List.mem_flatten.1 (List.mem_filter.1 hw).1
    exact tokens_isToken htk ws hws w hww
  have hread : readTexts (parseFreq opts fs).2 paths = .ok lss := by
    refine readTexts_ok (hr.imp fun p ls => ?_)
    rintro ⟨g1, t, g2, g3⟩
    exact ⟨t, by rw [p5, if_neg g1]; exact g2, g3⟩
  have hout : ¬ ((parseFreq opts fs).1.words = none ∧ (parseFreq opts fs).1.chars = none) := by
    rw [p2, p3]
    rintro ⟨g1, g2⟩
    exact hdiff (g1.trans g2.symm)
  obtain ⟨fs', hmain, hfile⟩ : ∃ fs', freqMain R1 R2 distinct J opts fs = (fs', none) ∧
      fs' p = some (writeStats J (if args.level = .char then cf else wf) (some n)) := by
    unfold freqMain
    simp only [hout, if_false, p1, hi, hread, p4, ← hdd, w1]
    refine ⟨_, rfl, ?_⟩
    rw [p2, p3]
    by_cases hl : args.level = .char
    · simp only [hl, if_true] at hp ⊢
      simp [hp, Files.put]
    · simp only [hl, if_false] at hp ⊢
      rw [hp] at hdiff ⊢
      cases hy : (opts.filterMap FreqOpt.charFile).getLast? with
      | none => simp [Files.put]
      | some q =>
        have : p ≠ q := fun e => hdiff (by rw [hy, e])
        simp [Files.put, this]
  refine ⟨fs', _, hmain, hfile, ?_⟩
  have htok : ∀ q ∈ (if args.level = .char then cf else wf), IsToken q.1 := by
    rintro ⟨w, f⟩ hq
    split at hq
    · obtain ⟨ch, rfl, g2, _⟩ := (w5 w f).1 hq
      obtain ⟨u, hu, hcu⟩ := List.mem_flatten.1 g2
      refine ⟨by simp, fun c hc => ?_⟩
      rw [List.mem_singleton] at hc
      subst hc
      exact (htoks u hu).2 _ hcu
    · exact htoks _ ((w3 w f).1 hq).1
  have hk : bindKeywords [lit "inp", lit "term_freqs"] ((((learnKeys.erase (lit "spark_master")).erase (lit "driver_mem")).erase (lit "dedup")).erase (lit "inp")) = .ok () := by
    decide
  have hst : (LearnFiles.mk (some (writeStats J wf (some n))) (some (writeStats J cf (some n))) lf.model).stats args.level =
      some (writeStats J (if args.level = .char then cf else wf) (some n)) := by
    rw [LearnFiles.stats]; split <;> rfl
  simp only [mainTask, ht, hlev, htf, if_true, hvs, hmf, hcov, hev, learnTf_inp hJ htok, learnMain, hlf, hfiles, w1, hst, hk]
  cases hx : learnTf J ord A args.level (fileLines (writeStats J (if args.level = .char then cf else wf) (some n))) args.vocabSize args.minFreq
      args.cov args.minCoEv with
  | error e => rfl
  | ok table =>
    simp only
    cases (saveModel J args.level.kind table lf.model).2 <;> rfl

/-- C95 is false with the defaults when the model is compared with the one learned from the text itself: `nlcodec-freq` counts a repeated line
once. -/
theorem C95_dedup_refuted :
    ∃ t, (freqMain exRed exRed List.dedup pyJson [.inp [lit "t"], .words (lit "w")] exFiles).1 (lit "w") = some t ∧
      (mainTask pyJson ordId accExact { task := .learn, termFreqs := true, level := some .word, cov := none } none t).1 ≠
      (mainTask pyJson ordId accExact { task := .learn, level := some .word, cov := none } none (lit "b a\r\na\nb a\n")).1 :=
  ⟨lit "#{\"version\": \"0.2\", \"line_count\": 2}\na\t2\nb\t1\n", by decide +kernel⟩

end Verif
