import Verif.Lemmas.Chars
import Verif.Props.Unknown
/-!
# C99: the command `nlcodec` on bytes

The theorems about `nlcodec` (C62, C88, C98) speak of texts.  Here files are bytes, arriving in chunks of any size.
-/

namespace Verif
open Spec

/-- the UTF-8 encoding of a text, by Lean's own library -/
def Spec.utf8 (s : String) : List Nat := (s.toList.flatMap String.utf8EncodeChar).map UInt8.toNat

theorem encode_lit (s : String) : utf8Encode (lit s) = .ok (utf8 s) := utf8Encode_eq s.toList

theorem lit_sc (s : String) : Sc (lit s) := lit_scalar s

theorem lit_inj {s t : String} (h : lit s = lit t) : s = t := by
  apply String.ext
  exact List.map_injective_iff.2 (fun a b h => Char.ext (UInt32.toNat_inj.1 h)) h

theorem exists_text {s : Str} (h : Sc s) : ∃ t : String, lit t = s ∧ utf8Encode s = .ok (utf8 t) := by
  obtain ⟨t, rfl⟩ := exists_lit h
  exact ⟨t, rfl, encode_lit t⟩

theorem byteLines_text {t : String} {chunks : List (List Nat)} (h : chunks.flatten = utf8 t) : byteLines chunks = ⟨inpLines (lit t), none⟩ := by
  have := readChunks_complete chunks [] (T := lit t) (by rw [List.nil_append, h]; exact encode_lit t) (Or.inl rfl)
  simp only [byteLines, this, if_true]

theorem univNewlines_append_of {q : Str} (hq : q.head? ≠ some 10) (p : Str) : univNewlines (p ++ q) = univNewlines p ++ univNewlines q := by
  induction p using univNewlines.induct with
  | case1 r ih => simp only [List.cons_append, univNewlines, ih]
  | case2 r hr ih =>
    rw [List.cons_append, univNewlines.eq_2 _ hr, univNewlines.eq_2, ih]
    · rfl
    · intro r' e
      cases r with
      | nil => rw [List.nil_append] at e; rw [e] at hq; simp at hq
      | cons d r =>
        simp only [List.cons_append, List.cons.injEq] at e
        exact hr r (by rw [e.1])
  | case3 c r h1 h2 ih =>
    rw [List.cons_append, univNewlines.eq_3 _ _ h1 h2, univNewlines.eq_3, ih]
    · rfl
    · intro r' e _; exact h2 e
    · exact h2
  | case4 => rfl

theorem univNewlines_last {p : Str} (h : p.getLast? = some 10 ∨ p.getLast? = some 13) : (univNewlines p).getLast? = some 10 := by
  induction p using univNewlines.induct with
  | case1 r ih =>
    rw [univNewlines]
    cases r with
    | nil => rfl
    | cons d r =>
      have h' := ih (by simpa [List.getLast?_cons_cons] using h)
      cases hu : univNewlines (d :: r) with
      | nil => rw [hu] at h'; simp at h'
      | cons x y => rw [hu] at h'; rw [List.getLast?_cons_cons]; exact h'
  | case2 r hr ih =>
    rw [univNewlines.eq_2 _ hr]
    cases r with
    | nil => rfl
    | cons d r =>
      have h' := ih (by simpa [List.getLast?_cons_cons] using h)
      cases hu : univNewlines (d :: r) with
      | nil => rw [hu] at h'; simp at h'
      | cons x y => rw [hu] at h'; rw [List.getLast?_cons_cons]; exact h'
  | case3 c r h1 h2 ih =>
    rw [univNewlines.eq_3 _ _ h1 h2]
    cases r with
    | nil =>
      rw [univNewlines]
      simp only [List.getLast?_singleton, Option.some.injEq] at h ⊢
      rcases h with h | h
      · exact h
      · exact absurd h h2
    | cons d r =>
      have h' := ih (by simpa [List.getLast?_cons_cons] using h)
      cases hu : univNewlines (d :: r) with
      | nil => rw [hu] at h'; simp at h'
      | cons x y => rw [hu] at h'; rw [List.getLast?_cons_cons]; exact h'
  | case4 => simp at h

theorem keepLines_append_of : ∀ (a q : Str), (a = [] ∨ a.getLast? = some 10) →
    keepLines (a ++ q) = keepLines a ++ keepLines q ∧ ∀ l ∈ keepLines a, l.getLast? = some 10
  | [], q, _ => ⟨rfl, by simp [keepLines]⟩
  | c :: a, q, h => by
    have h0 : (c :: a).getLast? = some 10 := by simpa using h
    have ha : a = [] ∨ a.getLast? = some 10 := by
      cases a with
      | nil => exact Or.inl rfl
      | cons d a => right; simpa [List.getLast?_cons_cons] using h0
    obtain ⟨i1, i2⟩ := keepLines_append_of a q ha
    rw [List.cons_append, keepLines, keepLines]
    split
    · refine ⟨by rw [i1]; rfl, fun l hl => ?_⟩
      rcases List.mem_cons.1 hl with rfl | hl
      · rfl
      · exact i2 l hl
    · rename_i hc
      have hne : keepLines a ≠ [] := by
        cases a with
        | nil => simp at h0; exact absurd h0 hc
        | cons d a =>
          rw [keepLines]
          split
          · simp
          · cases keepLines a <;> simp [consHead]
      obtain ⟨w, ws, hk⟩ := List.exists_cons_of_ne_nil hne
      rw [i1, hk]
      refine ⟨rfl, fun l hl => ?_⟩
      rw [hk] at i2
      rw [consHead] at hl
      rcases List.mem_cons.1 hl with rfl | hl
      · have hw := i2 w (by simp)
        cases w with
        | nil => simp at hw
        | cons x y => rw [List.getLast?_cons_cons]; exact hw
      · exact i2 l (by simp [hl])

/-- the complete lines of a text are the lines of a beginning of it -/
theorem complete_lines (t : Str) : ∃ p, p <+: t ∧ (p = [] ∨ p.getLast? = some 10 ∨ p.getLast? = some 13) ∧
    (inpLines t).filter (fun l => l.getLast? == some 10) = inpLines p := by
  obtain ⟨q, e, hq⟩ := rstripP_suffix (fun c => c != 10 && c != 13) t
  have hl := fun c => rstripP_last (p := fun c => c != 10 && c != 13) (s := t) c
  generalize rstripP (fun c => c != 10 && c != 13) t = p at *
  have hp : p = [] ∨ p.getLast? = some 10 ∨ p.getLast? = some 13 := by
    cases h : p.getLast? with
    | none => exact Or.inl (List.getLast?_eq_none_iff.1 h)
    | some c =>
      have := hl c h
      simp only [bne, Bool.and_eq_false_iff, Bool.not_eq_false', beq_iff_eq] at this
      rcases this with rfl | rfl
      · exact Or.inr (Or.inl rfl)
      · exact Or.inr (Or.inr rfl)
  have h10 : 10 ∉ q := fun h => by have := hq 10 h; simp at this
  have h13 : 13 ∉ q := fun h => by have := hq 13 h; simp at this
  have hu : univNewlines p = [] ∨ (univNewlines p).getLast? = some 10 := by
    rcases hp with rfl | hp
    · exact Or.inl rfl
    · exact Or.inr (univNewlines_last hp)
  obtain ⟨k1, k2⟩ := keepLines_append_of (univNewlines p) q hu
  refine ⟨p, ⟨q, e.symm⟩, hp, ?_⟩
  rw [e, inpLines, univNewlines_append_of (fun h => h10 (List.mem_of_mem_head? h)), univNewlines_id h13, k1, List.filter_append]
  rw [List.filter_eq_self.2 fun l hl => by simp [k2 l hl], inpLines]
  have : (keepLines q).filter (fun l => l.getLast? == some 10) = [] := by
    rw [List.filter_eq_nil_iff]
    intro l hl
    simp only [beq_iff_eq]
    intro h
    exact h10 (mem_keepLines q hl (List.mem_of_getLast? h))
  rw [this, List.append_nil]

section
variable {J : Json} (hJ : JsonLaws J) {ord : Nat → List Nat → List Nat} {A : Acc} {args : MainArgs A.F}

include hJ

/-- C99, learning: on the UTF-8 encoding of any text, in any chunks, the model file afterwards is the UTF-8 encoding of the model for the text, with
the same outcome; where learning writes no model, the old file is kept, whatever it contains. -/
theorem C99_learn (ht : args.task = .learn) {t : String} {chunks : List (List Nat)} (h : chunks.flatten = utf8 t) :
    ∃ (m : Option String) (e : Option Exc), mainTask J ord A args none (lit t) = (m.map lit, [], e) ∧
      ∀ model, mainBytes J ord A args model chunks = ((m.map utf8).or model, [], e) := by
  have hl : ∀ l ∈ inpLines (lit t), Sc l := fun l hl => (lit_sc t).inpLines hl
  simp only [mainTask, mainBytes, ht, byteLines_text h]
  cases hlev : args.level with
  | none => exact ⟨none, _, rfl, fun _ => rfl⟩
  | some level =>
    simp only [learnGen]
    have hsc : ∀ v, (if args.termFreqs = true then learnTf J ord A level (inpLines (lit t)) args.vocabSize (args.minFreq.getD 0) args.cov args.minCoEv
        else learnVocab ord A level (inpLines (lit t)) args.vocabSize (args.minFreq.getD 0) args.cov args.minCoEv) = .ok v → ScTable v := by
      intro v hv
      split at hv
      · exact ScTable.learnTf hv hl
      · exact ScTable.learnVocab hv hl
    generalize (if args.termFreqs = true then learnTf J ord A level (inpLines (lit t)) args.vocabSize (args.minFreq.getD 0) args.cov args.minCoEv
        else learnVocab ord A level (inpLines (lit t)) args.vocabSize (args.minFreq.getD 0) args.cov args.minCoEv) = r at hsc ⊢
    cases r with
    | error e => exact ⟨none, _, rfl, fun _ => rfl⟩
    | ok table =>
      have hv := hsc table rfl
      cases hm : Scheme.make level.kind table with
      | error e =>
        refine ⟨none, some e, ?_, fun _ => ?_⟩
        · simp [saveModel, hm]
        · simp [hm]
      | ok s =>
        have hsome : ∃ text, (saveModel J level.kind table none).1 = some text := by
          simp only [saveModel, hm]
          split
          · exact ⟨_, rfl⟩
          · split <;> exact ⟨_, rfl⟩
        obtain ⟨text, htext⟩ := hsome
        obtain ⟨m, rfl, hm'⟩ := exists_text (Sc.saveModel hJ hv htext)
        refine ⟨some m, (saveModel J level.kind table none).2, ?_, fun _ => ?_⟩
        · simp [htext]
        · simp [hm, htext, utf8Drop_encode hm']

omit hJ in
theorem write_text {f : Str → Py Str} {p : String} (hf : ∀ l r, Sc l → f l = .ok r → Sc r) : ∃ out : String,
    (genMap f none (inpLines (lit p))).out.flatMap (· ++ [10]) = lit out ∧
    ∀ e, writeBytes (genMap f none (inpLines (lit p))).out e = (utf8 out, e) := by
  have hs : ∀ l ∈ (genMap f none (inpLines (lit p))).out, Sc l := by
    intro l hl
    obtain ⟨a, h1, h2⟩ := genMap_out _ hl
    exact hf a l ((lit_sc p).inpLines h1) h2
  obtain ⟨bs, h1, _⟩ := writeBytes_ok _ none hs
  obtain ⟨out, h3, h4⟩ := exists_text (utf8Encode_scalar h1)
  refine ⟨out, h3.symm, fun e => ?_⟩
  obtain ⟨bs', h5, h6⟩ := writeBytes_ok _ e hs
  rw [h4] at h5
  cases h5
  exact h6

omit hJ in
theorem genMap_or {α β : Type} (f : α → Py β) (e : Option Exc) (as : List α) :
    (genMap f e as).out = (genMap f none as).out ∧ (genMap f e as).exc = (genMap f none as).exc.or e := by
  induction as with
  | nil => exact ⟨rfl, rfl⟩
  | cons a as ih =>
    simp only [genMap]
    split
    · exact ⟨rfl, rfl⟩
    · exact ⟨by rw [ih.1], ih.2⟩

omit hJ in
/-- C99, encoding and decoding: for a model that is valid UTF-8 and the encoding of a text in any chunks, the bytes written are the encoding of
what the command writes for the text, with the same outcome. -/
theorem C99_code (ht : args.task ≠ .learn) (m : Option String) {t : String} {chunks : List (List Nat)} (h : chunks.flatten = utf8 t) :
    ∃ (out : String) (e : Option Exc), mainTask J ord A args (m.map lit) (lit t) = (m.map lit, lit out, e) ∧
      mainBytes J ord A args (m.map utf8) chunks = (m.map utf8, utf8 out, e) := by
  have hnil : lit "" = [] ∧ utf8 "" = [] := ⟨rfl, rfl⟩
  simp only [mainTask, mainBytes, byteLines_text h]
  cases m with
  | none => cases hk : args.task with
    | learn => exact absurd hk ht
    | encode => exact ⟨"", some .fileNotFound, by simp [hnil.1], by simp [hnil.2]⟩
    | decode => exact ⟨"", some .fileNotFound, by simp [hnil.1], by simp [hnil.2]⟩
  | some m =>
    simp only [Option.map_some, utf8Skip_encode (encode_lit m)]
    cases hs : loadScheme J (lit m) with
    | error e => cases hk : args.task with
      | learn => exact absurd hk ht
      | encode => exact ⟨"", some e, by simp [hnil.1], by simp [hnil.2]⟩
      | decode => exact ⟨"", some e, by simp [hnil.1], by simp [hnil.2]⟩
    | ok s =>
      have hv := ScTable.load hs (lit_sc m)
      cases hk : args.task with
      | learn => exact absurd hk ht
      | encode =>
        obtain ⟨out, h1, h2⟩ := write_text (f := encodeLine s args.indices) (p := t) fun l r hl hr => Sc.encodeLine hv hl hr
        exact ⟨out, (genMap (encodeLine s args.indices) none (inpLines (lit t))).exc, by simp only [cliEncode, writeLines, h1], by simp only [h2]⟩
      | decode =>
        obtain ⟨out, h1, h2⟩ := write_text (f := decodeLine s args.indices) (p := t) fun l r hl hr => Sc.decodeLine hv hl hr
        exact ⟨out, (genMap (decodeLine s args.indices) none (inpLines (lit t))).exc, by simp only [cliDecode, writeLines, h1], by simp only [h2]⟩

omit hJ in
theorem byteLines_bad {chunks : List (List Nat)} (h : ∀ t, chunks.flatten ≠ utf8 t) :
    ∃ p : String, utf8 p <+: chunks.flatten ∧ (lit p = [] ∨ (lit p).getLast? = some 10 ∨ (lit p).getLast? = some 13) ∧
      byteLines chunks = ⟨inpLines (lit p), some .unicode⟩ := by
  cases hr : readChunks [] chunks with
  | mk t ok =>
    obtain ⟨x, h1, h2, h3⟩ := readChunks_sound chunks [] hr
    rw [List.nil_append] at h2 h3
    have hok : ok = false := by
      by_contra hc
      have hx := h3 (by simpa using hc)
      obtain ⟨t', e1, e2⟩ := exists_text (utf8Encode_scalar h1)
      rw [h1] at e2
      cases e2
      exact h t' hx.symm
    subst hok
    obtain ⟨p, ⟨q, hq⟩, hp, hc⟩ := complete_lines (if t.getLast? = some 13 then t.dropLast else t)
    have hpt : ∃ q', t = p ++ q' := by
      split at hq
      · refine ⟨q ++ [13], ?_⟩
        rename_i h13
        rw [← List.append_assoc, hq]
        exact (List.dropLast_append_getLast? _ h13).symm
      · exact ⟨q, hq.symm⟩
    obtain ⟨q', rfl⟩ := hpt
    have hsc : Sc (p ++ q') := utf8Encode_scalar h1
    obtain ⟨p', rfl, e2⟩ := exists_text hsc.of_append_left
    obtain ⟨q'', rfl, e3⟩ := exists_text hsc.of_append_right
    have e4 := utf8Encode_append e2 e3
    rw [h1] at e4
    cases e4
    refine ⟨p', (List.prefix_append _ _).trans h2, hp, ?_⟩
    simp only [byteLines, hr, Bool.false_eq_true, if_false]
    rw [hc]

omit hJ in
/-- C99, learning from bytes that are not UTF-8: an exception, and the model file is as before (except at the byte level, where the input is
not read). -/
theorem C99_learn_invalid (ht : args.task = .learn) (hl : args.level ≠ some .byte) {chunks : List (List Nat)} (h : ∀ t, chunks.flatten ≠ utf8 t)
    (model : Option (List Nat)) : ∃ e, mainBytes J ord A args model chunks = (model, [], some e) := by
  obtain ⟨p, _, _, hb⟩ := byteLines_bad h
  simp only [mainBytes, ht, hb]
  cases hlev : args.level with
  | none => exact ⟨_, rfl⟩
  | some level =>
    have hne : level ≠ .byte := fun e => hl (by rw [hlev, e])
    have : ∃ e, learnGen J ord A args level ⟨inpLines (lit p), some .unicode⟩ = .error e := by
      simp only [learnGen, hne, if_false]
      repeat' split
      all_goals exact ⟨_, rfl⟩
    obtain ⟨e, he⟩ := this
    simp only [he]
    exact ⟨e, rfl⟩

omit hJ in
/-- C99, which exception: `UnicodeDecodeError` when learning from texts, except that bpe refuses a vocabulary size that is not positive before it
reads anything. -/
theorem C99_learn_exception (ht : args.task = .learn) {level : LevelName} (hl : args.level = some level) (hb : level ≠ .byte)
    (htf : args.termFreqs = false) {chunks : List (List Nat)} (h : ∀ t, chunks.flatten ≠ utf8 t) (model : Option (List Nat)) :
    mainBytes J ord A args model chunks =
      (model, [], some (if level = .bpe ∧ args.minCoEv ≤ 1 ∧ args.vocabSize ≤ 0 then .assertion else .unicode)) := by
  obtain ⟨p, _, _, hp⟩ := byteLines_bad h
  have hmx : (0 : Int) < maxSize := by decide
  have hmi : ¬ MIN_CO_EV ≤ 1 := by decide
  have key : learnGen J ord A args level ⟨inpLines (lit p), some .unicode⟩ =
      .error (if level = .bpe ∧ args.minCoEv ≤ 1 ∧ args.vocabSize ≤ 0 then .assertion else .unicode) := by
    simp only [learnGen, hb, if_false, htf, Bool.false_eq_true]
    by_cases h1 : level = .bpe
    · by_cases h2 : args.minCoEv ≤ 1
      · by_cases h3 : args.vocabSize ≤ 0
        · simp [h1, h2, h3, Int.not_lt.2 h2, Int.not_lt.2 h3]
        · simp [h1, h2, h3, Int.not_lt.2 h2, Int.not_le.1 h3]
      · by_cases h3 : args.vocabSize ≤ 1
        · simp [h1, h2, h3, hmx, Int.not_le.1 h2]
        · have : 0 < args.vocabSize := by omega
          simp [h1, h2, h3, this]
    · by_cases h2 : level = .subword
      · by_cases h3 : args.vocabSize ≤ 1
        · simp [h2, h3, hmx, Int.not_le.1 hmi]
        · have : 0 < args.vocabSize := by omega
          simp [h2, h3, this]
      · simp [h1, h2]
  simp only [mainBytes, ht, hp, hl, key]

omit hJ in
/-- C99, encoding and decoding bytes that are not UTF-8: what is written is what the command writes for some whole lines at the beginning of the
input, which are valid, and the program ends with an exception. -/
theorem C99_code_invalid (ht : args.task ≠ .learn) (m : Option String) {chunks : List (List Nat)} (h : ∀ t, chunks.flatten ≠ utf8 t) :
    ∃ (p out : String) (e : Option Exc), utf8 p <+: chunks.flatten ∧ (lit p = [] ∨ (lit p).getLast? = some 10 ∨ (lit p).getLast? = some 13) ∧
      mainTask J ord A args (m.map lit) (lit p) = (m.map lit, lit out, e) ∧
      mainBytes J ord A args (m.map utf8) chunks = (m.map utf8, utf8 out, some (e.getD .unicode)) := by
  have hnil : lit "" = [] ∧ utf8 "" = [] := ⟨rfl, rfl⟩
  have hor : ∀ e : Option Exc, e.or (some .unicode) = some (e.getD .unicode) := fun e => by cases e <;> rfl
  obtain ⟨p, h1, h2, hb⟩ := byteLines_bad h
  simp only [mainTask, mainBytes, hb]
  cases m with
  | none => cases hk : args.task with
    | learn => exact absurd hk ht
    | encode => exact ⟨p, "", some .fileNotFound, h1, h2, by simp [hnil.1], by simp [hnil.2]⟩
    | decode => exact ⟨p, "", some .fileNotFound, h1, h2, by simp [hnil.1], by simp [hnil.2]⟩
  | some m =>
    simp only [Option.map_some, utf8Skip_encode (encode_lit m)]
    cases hs : loadScheme J (lit m) with
    | error e => cases hk : args.task with
      | learn => exact absurd hk ht
      | encode => exact ⟨p, "", some e, h1, h2, by simp [hnil.1], by simp [hnil.2]⟩
      | decode => exact ⟨p, "", some e, h1, h2, by simp [hnil.1], by simp [hnil.2]⟩
    | ok s =>
      have hv := ScTable.load hs (lit_sc m)
      cases hk : args.task with
      | learn => exact absurd hk ht
      | encode =>
        obtain ⟨out, g1, g2⟩ := write_text (f := encodeLine s args.indices) (p := p) fun l r hl hr => Sc.encodeLine hv hl hr
        obtain ⟨k1, k2⟩ := genMap_or (encodeLine s args.indices) (some .unicode) (inpLines (lit p))
        exact ⟨p, out, (genMap (encodeLine s args.indices) none (inpLines (lit p))).exc, h1, h2, by simp only [cliEncode, writeLines, g1], by simp only [k1, k2, g2, hor]⟩
      | decode =>
        obtain ⟨out, g1, g2⟩ := write_text (f := decodeLine s args.indices) (p := p) fun l r hl hr => Sc.decodeLine hv hl hr
        obtain ⟨k1, k2⟩ := genMap_or (decodeLine s args.indices) (some .unicode) (inpLines (lit p))
        exact ⟨p, out, (genMap (decodeLine s args.indices) none (inpLines (lit p))).exc, h1, h2, by simp only [cliDecode, writeLines, g1], by simp only [k1, k2, g2, hor]⟩

/-- the program run three times on bytes: `learn` writes a model over any file, and with it, however the bytes arrive, `encode` and `decode` give the
lines back -/
def Spec.RestoresBytes (J : Json) (ord : Nat → List Nat → List Nat) (A : Acc) (args : MainArgs A.F) (bytes : List Nat) (lines : List Str) : Prop :=
  ∃ mb, (∀ chunks old, chunks.flatten = bytes → mainBytes J ord A args old chunks = (some mb, [], none)) ∧
    ∀ enc dec : MainArgs A.F, enc.task = .encode → dec.task = .decode → enc.indices = dec.indices →
      ∃ outb, (∀ chunks, chunks.flatten = bytes → mainBytes J ord A enc (some mb) chunks = (some mb, outb, none)) ∧
        ∃ r : String, lit r = lines.flatMap (· ++ [10]) ∧
          ∀ chunks, chunks.flatten = outb → mainBytes J ord A dec (some mb) chunks = (some mb, utf8 r, none)

/-- C99: what is restored from a text (C88) is restored from its bytes. -/
theorem C99_restore (ht : args.task = .learn) {t : String} {m : Str} {lines : List Str} (h : mainTask J ord A args none (lit t) = (some m, [], none))
    (hr : Restores J ord A m (lit t) lines) : RestoresBytes J ord A args (utf8 t) lines := by
  have learn := fun chunks h => C99_learn hJ (ord := ord) (A := A) (args := args) ht (t := t) (chunks := chunks) h
  obtain ⟨m', e, h1, _⟩ := learn [utf8 t] (by simp)
  rw [h] at h1
  have hm : m'.map lit = some m := (congrArg Prod.fst h1).symm
  cases m' with
  | none => simp at hm
  | some ms =>
  have hm' : lit ms = m := by simpa using hm
  subst hm'
  refine ⟨utf8 ms, fun chunks old hc => ?_, fun enc dec he hd hi => ?_⟩
  · obtain ⟨m'', e', g1, g2⟩ := learn chunks hc
    rw [h] at g1
    obtain ⟨k1, k2⟩ : some (lit ms) = m''.map lit ∧ none = e' := by simpa using g1
    cases m'' with
    | none => simp at k1
    | some x =>
      have : ms = x := lit_inj (by simpa using k1)
      subst this
      rw [g2, ← k2]; rfl
  · obtain ⟨out, o1, o2⟩ := hr enc dec he hd hi
    have code := fun chunks h => C99_code (J := J) (ord := ord) (A := A) (args := enc) (by simp [he]) (some ms) (t := t) (chunks := chunks) h
    obtain ⟨os, e', g1, g2⟩ := code [utf8 t] (by simp)
    simp only [Option.map_some] at g1
    rw [o1] at g1
    obtain ⟨k1, k2⟩ : out = lit os ∧ none = e' := by simpa using g1
    subst k1
    refine ⟨utf8 os, fun chunks hc => ?_, ?_⟩
    · obtain ⟨os', e'', g3, g4⟩ := code chunks hc
      simp only [Option.map_some] at g3 g4
      rw [o1] at g3
      obtain ⟨k3, k4⟩ : lit os = lit os' ∧ none = e'' := by simpa using g3
      rw [g4, lit_inj k3, ← k4]
    · have code' := fun chunks h => C99_code (J := J) (ord := ord) (A := A) (args := dec) (by simp [hd]) (some ms) (t := os) (chunks := chunks) h
      obtain ⟨r, e3, g5, _⟩ := code' [utf8 os] (by simp)
      simp only [Option.map_some] at g5
      rw [o2] at g5
      obtain ⟨k5, k6⟩ : lines.flatMap (· ++ [10]) = lit r ∧ none = e3 := by simpa using g5
      refine ⟨r, k5.symm, fun chunks hc => ?_⟩
      obtain ⟨r', e4, g7, g8⟩ := code' chunks hc
      simp only [Option.map_some] at g7 g8
      rw [o2, k5] at g7
      obtain ⟨k7, k8⟩ : lit r = lit r' ∧ none = e4 := by simpa using g7
      rw [g8, lit_inj k7, ← k8]

/-- C99 for words -/
theorem C99_word (ht : args.task = .learn) (hlev : args.level = some .word) (hraw : args.termFreqs = false) (hmf : ∀ n, args.minFreq = some n → n ≤ 1)
    (hvs : args.vocabSize ≤ 0) {t : String} {ls : List Str} (hl : Lines (lit t) ls) {wss : List (List Str)} (hw : List.Forall₂ Tokens ls wss) :
    RestoresBytes J ord A args (utf8 t) (spaced wss) := by
  obtain ⟨m, h1, h2⟩ := C88_word hJ (fun c hc => (lit_scalar t c hc).2) hl hw (ord := ord) A ht hlev hraw hmf hvs none
  exact C99_restore hJ ht h1 h2

/-- C99 for BPE, with `-cv 0`: whenever `learn` ends without exception -/
theorem C99_bpe (hord : ∀ i l, (ord i l).Perm l) (ht : args.task = .learn) (hlev : args.level = some .bpe) (hraw : args.termFreqs = false)
    (hcov : args.cov = none) {t : String} (hsp : SP ∉ lit t) {ls : List Str} (hl : Lines (lit t) ls) {wss : List (List Str)}
    (hw : List.Forall₂ Tokens ls wss) {chunks : List (List Nat)} (hc : chunks.flatten = utf8 t) {old mb : Option (List Nat)} {out : List Nat}
    (h : mainBytes J ord A args old chunks = (mb, out, none)) : RestoresBytes J ord A args (utf8 t) (spaced wss) := by
  obtain ⟨m, e, h1, h2⟩ := C99_learn hJ (ord := ord) ht hc
  rw [h2 old] at h
  cases h
  obtain ⟨m', e1, _, h3⟩ := C88_bpe hJ (fun c hc => (lit_scalar t c hc).2) hl hw hord A ht hlev hraw hcov hsp h1
  rw [e1] at h1
  exact C99_restore hJ ht h1 h3

end

/-- `learn`, then `encode` and `decode` of the same bytes -/
def pipeBytes (args : MainArgs Dy) (idx : Bool) (chunks : List (List Nat)) : List Nat × Option Exc :=
  let r := mainBytes pyJson ordId accF64 args none chunks
  let e := mainBytes pyJson ordId accF64 { task := .encode, indices := idx, cov := none } r.1 chunks
  (mainBytes pyJson ordId accF64 { task := .decode, indices := idx, cov := none } r.1 (e.2.1.map ([·]))).2

-- a character cut between two chunks, and CR LF cut between two
example : pipeBytes { task := .learn, level := some .word, cov := none } true [[98, 195], [164, 32, 97, 13], [10, 226, 130], [], [172]] =
    (utf8 "bä a\n€\n", none) := by decide +kernel
example : [[98, 195], [164, 32, 97, 13], [10, 226, 130], [], [172]].flatten = utf8 "bä a\r\n€" := by decide +kernel
example : pipeBytes { task := .learn, level := some .bpe, cov := none, minCoEv := 2 } false [[195, 164, 98, 195], [164, 32, 195, 164, 98, 10, 195, 164, 98, 32, 195, 164]] =
    (utf8 "äbä äb\näb ä\n", none) := by decide +kernel
-- a byte that is no beginning of a character: nothing is learned, and of the lines only the whole ones before it are written
example : mainBytes pyJson ordId accF64 { task := .learn, level := some .word, cov := none } (some [1]) [[97, 10, 98, 255, 10, 99]] =
    (some [1], [], some .unicode) := by decide +kernel
example : (mainBytes pyJson ordId accF64 { task := .encode, cov := none }
    (mainBytes pyJson ordId accF64 { task := .learn, level := some .word, cov := none } none [[97, 10, 98]]).1 [[97, 10, 98], [10, 97, 255, 10, 99]]).2 =
    (utf8 "a\n", some .unicode) := by decide +kernel
-- the text ends within a character
example : byteLines [[97, 10, 195]] = ⟨[lit "a\n"], some .unicode⟩ := by decide +kernel
example : ∀ t, [[97, 10, 98, 255, 10, 99]].flatten ≠ utf8 t := by
  intro t h
  have := readChunks_complete [[97, 10, 98, 255, 10, 99]] [] (T := lit t) (by rw [List.nil_append, h]; exact encode_lit t) (Or.inl rfl)
  have h2 : (readChunks [] [[97, 10, 98, 255, 10, 99]]).2 = false := by decide
  rw [this] at h2
  cases h2

end Verif
