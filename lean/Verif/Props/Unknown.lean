import Verif.Props.Main
/-!
# Property C98: what is lost by `nlcodec learn` with any options, then `encode` and `decode` of any text
-/

namespace Verif
open Spec

/-! ## unknown characters in the BPE scheme -/

/-- a character as it comes back: `<unk>` if it is not in the vocabulary -/
def Spec.known (ns : List Str) (c : Nat) : Str := if [c] ∈ ns then [c] else lit "<unk>"

theorem greedy_known {ns : List Str} {s : Str} {out : List (Option Str)} (h : Greedy ns s out) (hc : ∀ c ∈ s, [c] ∈ ns ∨ ∀ n ∈ ns, c ∉ n) :
    (out.map fun o => o.getD unkName).flatten = s.flatMap (known ns) := by
  induction h with
  | nil => rfl
  | @tok w r out _ hw _ _ ih =>
    have hk : w.flatMap (known ns) = w := by
      have : ∀ c ∈ w, known ns c = [c] := by
        intro c hcw
        rcases hc c (List.mem_append_left _ hcw) with h | h
        · rw [known, if_pos h]
        · exact absurd hcw (h w hw)
      rw [List.flatMap_congr this]
      simp
    rw [List.flatMap_append, hk, ← ih fun c hcr => hc c (List.mem_append_right _ hcr)]
    rfl
  | @unk c r out hn _ ih =>
    have h1 : [c] ∉ ns := fun hm => hn [c] hm (by simp) (by simp)
    rw [List.flatMap_cons, ← ih fun c hcr => hc c (List.mem_cons_of_mem _ hcr), known, if_neg h1]
    rfl

theorem flatMap_join (f : Nat → Str) (x : Nat) (hx : f x = [x]) (ws : List Str) : (join [x] ws).flatMap f = join [x] (ws.map fun w => w.flatMap f) := by
  induction ws with
  | nil => rfl
  | cons w ws ih =>
    cases ws with
    | nil => simp [join]
    | cons v vs =>
      simp only [join, List.map_cons] at ih ⊢
      rw [List.flatMap_append, List.flatMap_append, ih]
      simp [hx]

theorem known_token {ns : List Str} {w : Str} (h : IsToken w) : IsToken (w.flatMap (known ns)) := by
  have hu : ∀ c ∈ lit "<unk>", isWhite c = false := by decide
  refine ⟨?_, ?_⟩
  · obtain ⟨c, w', rfl⟩ := List.exists_cons_of_ne_nil h.1
    simp only [List.flatMap_cons, known]
    split <;> simp [lit]
  · intro c hc
    obtain ⟨d, hd, hcd⟩ := List.mem_flatMap.1 hc
    rw [known] at hcd
    split at hcd
    · rw [List.mem_singleton.1 hcd]; exact h.2 d hd
    · exact hu c hcd

/-- C04 for lines with unknown characters: the words of the line come back with each unknown character replaced by `<unk>`.  A character is unknown here if it
occurs in no name at all. -/
theorem C98_bpe_line {tbl : List Ty} {s : Scheme} (h : Scheme.make .bpe tbl = .ok s) (hi : Indexed tbl)
    {line : Str} {ws : List Str} (hw : Tokens line ws) (hc : ∀ w ∈ ws, ∀ c ∈ w, ([c] ∈ names tbl ∨ ∀ n ∈ names tbl, c ∉ n) ∧ c ≠ SP) :
    ∃ ids, s.encode line = .ok ids ∧ s.decode ids = .ok (List.intercalate [32] (ws.map fun w => w.flatMap (known (names tbl)))) := by
  obtain ⟨h1, h2, h3, h4, h5, h6⟩ := make_bpe_ok h
  obtain ⟨ids, ps, a, b, c⟩ := bpe_decode_encode h hi line
  refine ⟨ids, a, ?_⟩
  simp only [Scheme.decode, c, Scheme.decodeStr, h2]
  obtain ⟨out, hg, he⟩ := bpeEncodeStr_spec h hi line
  rw [he] at b
  cases b
  have hws : ∀ w ∈ ws, IsToken w := fun w hww => split_isToken (by rw [split_of_tokens hw]; exact hww)
  have htext : bpeText line = join [SP] ws ++ [SP] := by rw [bpeText, split_strip, split_of_tokens hw]
  have hsp : [SP] ∈ names tbl := by
    obtain ⟨t, ht, hn⟩ := validateReserved_ok h4 5 (by omega)
    exact List.mem_map.2 ⟨t, List.mem_of_getElem? ht, by rw [hn]; rfl⟩
  have hksp : known (names tbl) SP = [SP] := if_pos hsp
  have hcov : ∀ c ∈ bpeText line, [c] ∈ names tbl ∨ ∀ n ∈ names tbl, c ∉ n := by
    intro c hcm
    rw [htext] at hcm
    rcases List.mem_append.1 hcm with hcm | hcm
    · rcases mem_join hcm with hcm | ⟨w, hwm, hcw⟩
      · simp at hcm; subst hcm; exact Or.inl hsp
      · exact (hc w hwm c hcw).1
    · simp at hcm; subst hcm; exact Or.inl hsp
  have hg' : Greedy (names tbl) (bpeText line) out := hg
  rw [greedy_known hg' hcov, htext, List.flatMap_append, flatMap_join _ _ hksp]
  have hlast : [SP].flatMap (known (names tbl)) = [SP] := by simp [hksp]
  rw [hlast]
  have hu : ∀ c ∈ lit "<unk>", c ≠ SP := by decide
  have : replaceCh SP 32 (join [SP] (ws.map fun w => w.flatMap (known (names tbl))) ++ [SP]) =
      join [32] (ws.map fun w => w.flatMap (known (names tbl))) ++ [32] := by
    have := replaceCh_join (ws.map fun w => w.flatMap (known (names tbl))) (by
      intro w' hw' c hcw
      obtain ⟨w, hwm, rfl⟩ := List.mem_map.1 hw'
      obtain ⟨d, hd, hcd⟩ := List.mem_flatMap.1 hcw
      rw [known] at hcd
      split at hcd
      · rw [List.mem_singleton.1 hcd]; exact (hc w hwm d hd).2
      · exact hu c hcd)
    simp only [replaceCh] at this ⊢
    rw [List.map_append, this]
    rfl
  rw [this, strip_intercalate (fun w' hw' => by
    obtain ⟨w, hwm, rfl⟩ := List.mem_map.1 hw'
    exact known_token (hws w hwm)), join_eq_intercalate]

example : (withScheme .bpe (exTable Level.subword ["a", "b", "ab"]) fun s => match s.encode (lit " xab  ay") with
    | .error e => .error e
    | .ok ids => s.decode ids) = .ok (lit "<unk>ab a<unk>") := by decide +kernel

/-! ## any options, any text -/

/-- with the model `m`, `encode` of the text followed by `decode`, both with or both without `-idx`, gives the lines, which depend on `-idx`; nothing fails and the
model file stays as it is -/
def Spec.Gives (J : Json) (ord : Nat → List Nat → List Nat) (A : Acc) (m : Str) (text : Str) (lines : Bool → List Str) : Prop :=
  ∀ enc dec : MainArgs A.F, enc.task = .encode → dec.task = .decode → enc.indices = dec.indices →
    ∃ out, mainTask J ord A enc (some m) text = (some m, out, none) ∧
      mainTask J ord A dec (some m) out = (some m, (lines enc.indices).flatMap (· ++ [10]), none)

theorem gives_of {J : Json} {ord : Nat → List Nat → List Nat} {A : Acc} {m : Str} {s : Scheme} (hload : loadScheme J m = .ok s) {text : Str}
    {lines : Bool → List Str} (h : ∀ b, ∃ out, cliEncode s b text = (out, none) ∧ cliDecode s b out = ((lines b).flatMap (· ++ [10]), none)) :
    Gives J ord A m text lines := by
  intro enc dec he hd hi
  obtain ⟨out, h1, h2⟩ := h enc.indices
  refine ⟨out, ?_, ?_⟩
  · simp only [mainTask, he, hload, h1]
  · simp only [mainTask, hd, hload, ← hi, h2]

section
variable {J : Json} (hJ : JsonLaws J) {ord : Nat → List Nat → List Nat} {text : Str} (hs : ∀ c ∈ text, ¬ (0xD800 ≤ c ∧ c ≤ 0xDFFF)) {ls : List Str}
  (hl : Lines text ls) {wss : List (List Str)} (hw : List.Forall₂ Tokens ls wss)

include hJ hs hl hw

/-- C98 for words: with any size and minimum frequency `learn` succeeds.  With its model, any text comes back, with `-idx` the unknown words of it as `<unk>`.  A word
of the text learned from is unknown only if it is rarer than the minimum frequency or the size is reached, and no more frequent than any known one. -/
theorem C98_word (A : Acc) {args : MainArgs A.F} (ht : args.task = .learn) (hlev : args.level = some .word) (hraw : args.termFreqs = false)
    (model : Option Str) : ∃ m tf v, mainTask J ord A args model text = (some m, [], none) ∧
      (∀ (w : Str) (f : Int), (w, f) ∈ tf ↔ w ∈ wss.flatten ∧ f = wss.flatten.count w) ∧
      VocabContract Level.word (effMinFreq .word (args.minFreq.getD 0)) tf v ∧
      (∀ w ∈ wss.flatten, w ∉ names v → (wss.flatten.count w : Int) < effMinFreq .word (args.minFreq.getD 0) ∨
        (0 < args.vocabSize ∧ (6 ≤ args.vocabSize → (v.length : Int) = args.vocabSize))) ∧
      ∀ text' ls' wss', Lines text' ls' → List.Forall₂ Tokens ls' wss' →
        Gives J ord A m text' fun idx => wss'.map fun ws => List.intercalate [32] (ws.map fun w => if idx = true ∧ w ∉ names v then lit "<unk>" else w) := by
  obtain ⟨v, s, m, h1, h2, h3, h4, h5⟩ := C77_learned hJ A (k := .word) (by tauto) (inp_decoded hl hs) args.vocabSize
    (effMinFreq .word (args.minFreq.getD 0)) none (by simp)
  have h1' : getInitVocab A Level.word (termFrequencies .word (inpLines text)).1 none (some (termFrequencies .word (inpLines text)).2)
      (effMinFreq .word (args.minFreq.getD 0)) args.vocabSize = .ok v := h1
  have htf : ∀ w f, (w, f) ∈ (termFrequencies .word (inpLines text)).1 ↔ w ∈ wss.flatten ∧ f = wss.flatten.count w := by
    intro w f
    rw [C15_counts (k := .word) _ _ (inp_tokens hl hw) (Or.inl rfl)]
    simp only [if_true]
    rw [List.flatMap_id']
  refine ⟨m, _, v, ?_, htf, C15_contract (termFrequencies_nodup .word (inpLines text)) (counted_pos .word _) h1', fun w hw' hn => ?_, ?_⟩
  · simp only [mainTask, ht, hlev, hraw, learnVocab, h1, LevelName.kind, saveModel_ok h2 h4, Bool.false_eq_true, if_false]
  · exact C15_complete (termFrequencies_nodup .word (inpLines text)) h1' ((htf w _).2 ⟨hw', rfl⟩) hn
  · intro text' ls' wss' hl' hw'
    refine gives_of h5 fun b => ?_
    obtain ⟨out, g1, g2⟩ := C62_word h2 b hl' hw'
    refine ⟨out, g1, ?_⟩
    rw [g2, List.flatMap_map]

/-- C98 for characters: with any size, minimum frequency and coverage `learn` succeeds.  With its model, any text comes back, with `-idx` the unknown characters of
it as `<unk>`.  No unknown character of the text learned from is more frequent in it than a known one.  U+2581 comes back as a space. -/
theorem C98_char (A : Acc) {args : MainArgs A.F} (ht : args.task = .learn) (hlev : args.level = some .char) (hraw : args.termFreqs = false)
    (hv : ∀ c, args.cov = some c → A.valid c = true) (model : Option Str) : ∃ m tf v, mainTask J ord A args model text = (some m, [], none) ∧
      (∀ (w : Str) (f : Int), (w, f) ∈ tf ↔ w ∈ (wss.flatMap fun ws => (List.intercalate [SP] ws).map fun c => [c]) ∧
        f = (wss.flatMap fun ws => (List.intercalate [SP] ws).map fun c => [c]).count w) ∧
      VocabContract Level.char (effMinFreq .char (args.minFreq.getD 0)) tf v ∧
      ∀ text' ls' wss', Lines text' ls' → List.Forall₂ Tokens ls' wss' →
        Gives J ord A m text' fun idx => wss'.map fun ws => (List.intercalate [SP] ws).flatMap fun c =>
          if c = SP then [32] else if idx = true ∧ [c] ∉ names v then lit "<unk>" else [c] := by
  obtain ⟨v, s, m, h1, h2, h3, h4, h5⟩ := C77_learned hJ A (k := .char) (by tauto) (inp_decoded hl hs) args.vocabSize
    (effMinFreq .char (args.minFreq.getD 0)) args.cov hv
  have h1' : getInitVocab A Level.char (termFrequencies .char (inpLines text)).1 args.cov (some (termFrequencies .char (inpLines text)).2)
      (effMinFreq .char (args.minFreq.getD 0)) args.vocabSize = .ok v := h1
  refine ⟨m, _, v, ?_, fun w f => ?_, C15_contract (termFrequencies_nodup .char (inpLines text)) (counted_pos .char _) h1', ?_⟩
  · simp only [mainTask, ht, hlev, hraw, learnVocab, h1, LevelName.kind, saveModel_ok h2 h4, Bool.false_eq_true, if_false]
  · rw [C15_counts (k := .char) _ _ (inp_tokens hl hw) (Or.inr rfl)]
    simp only [reduceCtorEq, if_false]
    rfl
  · intro text' ls' wss' hl' hw'
    refine gives_of h5 fun b => ?_
    obtain ⟨out, g1, g2⟩ := C62_char h2 b hl' hw'
    refine ⟨out, g1, ?_⟩
    rw [g2, List.flatMap_map]

omit hJ hs hl hw in
/-- the characters of names come from the initial names -/
theorem run_chars {minEv level : Int} {C C' : Corpus} {v v' : List Ty} {k : Nat} (h : Run minEv level C v k C' v') :
    ∀ n ∈ names v', ∀ c ∈ n, ∃ n0 ∈ names v, c ∈ n0 := by
  induction h with
  | refl => intro n hn c hc; exact ⟨n, hn, hc⟩
  | @step C C1 C' v v' n p ta tb hb hm ha hb2 hmer hr ih =>
    intro n hn c hc
    obtain ⟨n0, h0, hc0⟩ := ih n hn c hc
    rw [names, List.map_append] at h0
    rcases List.mem_append.1 h0 with h0 | h0
    · exact ⟨n0, h0, hc0⟩
    · have e : n0 = ta.name ++ tb.name := by simpa [mergedType] using h0
      subst e
      rcases List.mem_append.1 hc0 with h1 | h1
      · exact ⟨_, List.mem_map.2 ⟨ta, List.mem_of_getElem? ha, rfl⟩, h1⟩
      · exact ⟨_, List.mem_map.2 ⟨tb, List.mem_of_getElem? hb2, rfl⟩, h1⟩

omit hJ hs hl hw in
/-- merging makes no names of one character -/
theorem run_singles {minEv level : Int} {C C' : Corpus} {v v' : List Ty} {k : Nat} (h : Run minEv level C v k C' v') (hne : ∀ t ∈ v, t.name ≠ []) (c : Nat) :
    [c] ∈ names v' ↔ [c] ∈ names v := by
  induction h with
  | refl => rfl
  | @step C C1 C' v v' n p ta tb hb hm ha hb2 hmer hr ih =>
    have ha' := hne ta (List.mem_of_getElem? ha)
    have hb' := hne tb (List.mem_of_getElem? hb2)
    have hl : ∀ t : Ty, t.name = ta.name ++ tb.name → 2 ≤ t.name.length := by
      intro t e
      have := List.length_pos_of_ne_nil ha'
      have := List.length_pos_of_ne_nil hb'
      rw [e, List.length_append]; omega
    rw [ih (by
      intro t ht
      rcases List.mem_append.1 ht with ht | ht
      · exact hne t ht
      · rw [List.mem_singleton.1 ht]
        simp [mergedType, ha'])]
    rw [names, List.map_append, List.mem_append]
    refine or_iff_left ?_
    intro hm
    have e : [c] = ta.name ++ tb.name := by simpa [mergedType] using hm
    have := hl ⟨[c], 0, 0, 0, []⟩ e
    simp at this

/-- C98 for BPE, whenever `learn` ends without exception: with its model, any text comes back with its unknown characters as `<unk>`, with `-idx` or without.  A known
character is one of the initial vocabulary, for which the contract of `get_init_vocab` holds.  Missing: texts with U+2581, and unknown characters that occur in the
reserved names. -/
theorem C98_bpe_partial (hord : ∀ i l, (ord i l).Perm l) (A : Acc) {args : MainArgs A.F} (ht : args.task = .learn) (hlev : args.level = some .bpe)
    (hraw : args.termFreqs = false) (hv : ∀ c, args.cov = some c → A.valid c = true) {model model' : Option Str} {out : Str}
    (h : mainTask J ord A args model text = (model', out, none)) :
    ∃ m tf cf v0 v, model' = some m ∧ out = [] ∧ (∀ (w : Str) (f : Int), (w, f) ∈ tf ↔ w ∈ wss.flatten ∧ f = wss.flatten.count w) ∧
      (∀ (n : Str) (f : Int), (n, f) ∈ cf ↔ ∃ c, n = [c] ∧ f = chCount tf c ∧ 0 < f) ∧ VocabContract Level.char 1 cf v0 ∧
      (∀ c, [c] ∈ names v ↔ [c] ∈ names v0) ∧
      ∀ text' ls' wss', Lines text' ls' → List.Forall₂ Tokens ls' wss' → SP ∉ text' →
        (∀ c ∈ text', [c] ∈ names v ∨ c ∉ lit "<pad><unk><s></s><cls>") →
        Gives J ord A m text' fun _ => wss'.map fun ws => List.intercalate [32] (ws.map fun w => w.flatMap (known (names v))) := by
  simp only [mainTask, ht, hlev, hraw, learnVocab, Bool.false_eq_true, if_false, LevelName.kind] at h
  cases hb : bpeLearn ord A (inpLines text) args.vocabSize (effMinFreq .bpe (args.minFreq.getD 0)) args.cov args.minCoEv with
  | error e => rw [hb] at h; simp at h
  | ok vocab =>
    obtain ⟨s, m, h1, _, h3, h4⟩ := C77_learned_bpe hJ hord (inp_decoded hl hs) hv hb
    rw [hb] at h
    simp only [saveModel_ok h1 h3, Prod.mk.injEq] at h
    obtain ⟨tf, cf, v0, C, k, C', t1, t2, t3, t4, t5, t6, t7⟩ := C20_text hord (inp_tokens hl hw) hv hb
    have hi := (C22_text hord hv hb).1
    have hres : ∀ n ∈ names (v0.take 6), n = [SP] ∨ ∀ c ∈ n, c ∈ lit "<pad><unk><s></s><cls>" := by
      have e : names (v0.take 6) = [lit "<pad>", lit "<unk>", lit "<s>", lit "</s>", lit "<cls>", [SP]] := by
        have := congrArg (List.map (·.1)) t4.reserved
        rw [List.map_map] at this
        exact this
      rw [e]
      decide
    have h0 : ∀ n ∈ names v0, n ≠ [] ∧ ∀ c ∈ n, [c] ∈ names v0 ∨ c ∈ lit "<pad><unk><s></s><cls>" := by
      intro n hn
      rw [names, ← List.take_append_drop 6 v0, List.map_append] at hn
      rcases List.mem_append.1 hn with hn' | hn'
      · refine ⟨?_, fun c hc => ?_⟩
        · have e : names (v0.take 6) = [lit "<pad>", lit "<unk>", lit "<s>", lit "</s>", lit "<cls>", [SP]] := by
            have := congrArg (List.map (·.1)) t4.reserved
            rw [List.map_map] at this
            exact this
          have hn2 : n ∈ names (v0.take 6) := hn'
          rw [e] at hn2
          rintro rfl
          revert hn2
          decide
        · rcases hres n hn' with rfl | h
          · rw [List.mem_singleton.1 hc]
            refine Or.inl ?_
            rw [names, ← List.take_append_drop 6 v0, List.map_append]
            exact List.mem_append_left _ hn'
          · exact Or.inr (h c hc)
      · obtain ⟨t, htm, rfl⟩ := List.mem_map.1 hn'
        obtain ⟨c, e, _⟩ := (t3 _ _).1 (t4.counted t htm).1
        rw [e]
        refine ⟨by simp, fun c' hc' => Or.inl ?_⟩
        rw [List.mem_singleton.1 hc', ← e]
        exact List.mem_map.2 ⟨t, List.mem_of_mem_drop htm, rfl⟩
    have hsing := run_singles t6 fun t ht => (h0 t.name (List.mem_map.2 ⟨t, ht, rfl⟩)).1
    refine ⟨m, tf, cf, v0, vocab, h.1.symm, h.2.1.symm, t1, t3, t4, hsing, ?_⟩
    intro text' ls' wss' hl' hw' hsp hknown
    have htext := (tokens_lines_total hl' hw').2
    refine gives_of h4 fun b => ?_
    obtain ⟨out', ds, g1, g2, g3⟩ := C62_bpe_api h1 hi b hl'
    refine ⟨out', g1, ?_⟩
    rw [g2]
    congr 2
    have hcov : ∀ ws ∈ wss', ∀ w ∈ ws, ∀ c ∈ w, ([c] ∈ names vocab ∨ ∀ n ∈ names vocab, c ∉ n) ∧ c ≠ SP := by
      intro ws hws w hw2 c hc
      have hct := htext ws hws w hw2 c hc
      refine ⟨?_, fun e => hsp (e ▸ hct)⟩
      by_cases hk : [c] ∈ names vocab
      · exact Or.inl hk
      · refine Or.inr fun n hn hcn => ?_
        obtain ⟨n0, hn0, hc0⟩ := run_chars t6 n hn c hcn
        rcases (h0 n0 hn0).2 c hc0 with h | h
        · exact hk ((hsing c).2 h)
        · rcases hknown c hct with h' | h'
          · exact hk h'
          · exact h' h
    clear g1 g2 htext hl'
    induction hw' generalizing ds with
    | nil => cases g3; rfl
    | @cons l ws ls' wss' h5 h6 ih =>
      cases g3 with
      | cons h7 h8 =>
        obtain ⟨ids, e1, e2⟩ := h7
        obtain ⟨ids', e3, e4⟩ := C98_bpe_line h1 hi h5 (hcov ws (by simp))
        rw [e1] at e3
        cases e3
        rw [e2] at e4
        cases e4
        rw [List.map_cons, ih _ h8 fun ws hws => hcov ws (by simp [hws])]

end

/-- C98 for BPE is false of unknown characters that spell a reserved name: no character of "<s>" is known, yet it comes back as it is. -/
theorem C98_reserved_refuted : ∃ (s : Scheme) (ids : List Int), Scheme.make .bpe (exTable Level.char ["a"]) = .ok s ∧
    (∀ c ∈ lit "<s>", [c] ∉ names (exTable Level.char ["a"])) ∧ s.encode (lit "<s>") = .ok ids ∧ s.decode ids = .ok (lit "<s>") ∧
    (lit "<s>").flatMap (known (names (exTable Level.char ["a"]))) = lit "<unk><unk><unk>" := by
  have h : (withScheme .bpe (exTable Level.char ["a"]) fun s => match s.encode (lit "<s>") with
      | .error e => .error e
      | .ok ids => match s.decode ids with
        | .error e => .error e
        | .ok t => .ok (ids, t)) = .ok ([2, 5], lit "<s>") := by decide +kernel
  unfold withScheme at h
  cases hs : Scheme.make .bpe (exTable Level.char ["a"]) with
  | error e => rw [hs] at h; cases h
  | ok s =>
    rw [hs] at h
    simp only at h
    cases he : s.encode (lit "<s>") with
    | error e => rw [he] at h; cases h
    | ok ids =>
      rw [he] at h
      simp only at h
      cases hd : s.decode ids with
      | error e => rw [hd] at h; cases h
      | ok t =>
        rw [hd] at h
        cases h
        exact ⟨s, _, rfl, by decide +kernel, he, hd, by decide +kernel⟩

/-- with a coverage of 2/3, the characters of "xy" are not in the vocabulary of "ab ab xy" -/
example : (match learnVocab ordId accExact .bpe [lit "ab ab", lit "xy"] 9 0 (some (2, 3)) 2 with
    | .error _ => none
    | .ok v => some (names v)) = some [lit "<pad>", lit "<unk>", lit "<s>", lit "</s>", lit "<cls>", [SP], lit "a", lit "b", lit "ab"] := by
  decide +kernel

end Verif
