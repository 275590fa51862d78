import Verif.Props.Byte
import Verif.Props.Decode
import Verif.Lemmas.Cli
/-!
# Property C62: command line `encode | decode`

`Lines text ls` (Verif/Spec/Lines.lean): the lines of the input are `ls`; every text has lines (`lines_exist`).  The flag `b`
is `--indices`: the statements cover both modes, the same flag being given to both commands.  The second component of a result
is the exception that stopped the command, if any.
-/

namespace Verif
open Spec

/-- lines read and line specification: the tokens agree -/
theorem inpLines_tokens {text : Str} {ls : List Str} {wss : List (List Str)} (h : Lines text ls) (hw : List.Forall₂ Tokens ls wss) :
    List.Forall₂ (fun l ws => split l = ws) (inpLines text) wss := by
  have h1 := inpLines_spec h
  generalize inpLines text = is at h1
  clear h
  induction hw generalizing is with
  | nil => cases h1; exact .nil
  | cons h2 _ ih =>
    cases h1 with
    | cons h3 h4 =>
      refine .cons ?_ (ih _ h4)
      rcases h3 with rfl | rfl
      · exact split_of_tokens h2
      · rw [split_nl]; exact split_of_tokens h2

/-- C62, word scheme: the pipe gives the tokens of each line joined by one space, in index mode with unknown tokens replaced
by `<unk>`; in piece mode unknown tokens survive as well. -/
theorem C62_word {tbl : List Ty} {s : Scheme} (h : Scheme.make .word tbl = .ok s) (b : Bool) {text : Str} {ls : List Str}
    {wss : List (List Str)} (hl : Lines text ls) (hw : List.Forall₂ Tokens ls wss) :
    ∃ out, cliEncode s b text = (out, none) ∧
      cliDecode s b out = (wss.flatMap fun ws => List.intercalate [32] (ws.map fun w =>
        if b = true ∧ w ∉ names tbl then lit "<unk>" else w) ++ [10], none) := by
  have h2 := (make_word_ok h).2.1
  have := cli_of_lines (s := s) (b := b) (text := text) (ds := wss.map fun ws => List.intercalate [32] (ws.map fun w =>
        if b = true ∧ w ∉ names tbl then lit "<unk>" else w)) ?_
  · obtain ⟨out, h3, h4⟩ := this
    exact ⟨out, h3, by rw [h4, List.flatMap_map]⟩
  · rw [List.forall₂_map_right_iff]
    refine (inpLines_tokens hl hw).imp ?_
    rintro l ws rfl
    cases b with
    | true =>
      obtain ⟨ids, h3, h4⟩ := C01_word_round_trip h (tokens_split l)
      refine lineOK_idx h3 (h4.trans ?_)
      congr 2
      apply List.map_congr_left
      intro w _
      by_cases hw : w ∈ names tbl <;> simp [hw]
    | false =>
      refine lineOK_str (ps := split l) (fun p hp => split_isToken hp) (by simp [Scheme.encodeStr, h2]) ?_
      simp [Scheme.decodeStr, h2, join_eq_intercalate]

/-- C62, char scheme: each character of the normalised line survives; in index mode unknown ones become `<unk>`. -/
theorem C62_char {tbl : List Ty} {s : Scheme} (h : Scheme.make .char tbl = .ok s) (b : Bool) {text : Str} {ls : List Str}
    {wss : List (List Str)} (hl : Lines text ls) (hw : List.Forall₂ Tokens ls wss) :
    ∃ out, cliEncode s b text = (out, none) ∧
      cliDecode s b out = (wss.flatMap fun ws => ((List.intercalate [SP] ws).flatMap fun c =>
        if c = SP then [32] else if b = true ∧ [c] ∉ names tbl then lit "<unk>" else [c]) ++ [10], none) := by
  have h2 := (make_char_ok h).2.1
  have := cli_of_lines (s := s) (b := b) (text := text) (ds := wss.map fun ws => ((List.intercalate [SP] ws).flatMap fun c =>
        if c = SP then [32] else if b = true ∧ [c] ∉ names tbl then lit "<unk>" else [c])) ?_
  · obtain ⟨out, h3, h4⟩ := this
    exact ⟨out, h3, by rw [h4, List.flatMap_map]⟩
  · rw [List.forall₂_map_right_iff]
    refine (inpLines_tokens hl hw).imp ?_
    rintro l ws rfl
    cases b with
    | true =>
      obtain ⟨ids, h3, h4⟩ := C02_char_round_trip h (tokens_split l)
      refine lineOK_idx h3 (h4.trans ?_)
      congr 2
      funext c
      by_cases hw : [c] ∈ names tbl <;> simp [hw]
    | false =>
      refine lineOK_str (ps := (join [SP] (split l)).map fun c => [c]) ?_ (by simp [Scheme.encodeStr, h2]) ?_
      · intro p hp
        obtain ⟨c, hc, rfl⟩ := List.mem_map.1 hp
        rcases mem_join hc with hc | ⟨w, hw, hc⟩
        · simp at hc; subst hc; exact sp_token
        · refine ⟨by simp, ?_⟩
          intro d hd
          simp at hd
          subst hd
          exact (split_isToken hw).2 _ hc
      · simp only [Scheme.decodeStr, h2, join_eq_intercalate, replaceCh]
        congr 1
        generalize List.intercalate [SP] (split l) = t
        induction t with
        | nil => rfl
        | cons c t ih =>
          simp only [List.map_cons, List.flatten_cons, List.map_append, ih, List.flatMap_cons]
          by_cases hc : c = SP <;> simp [hc]

/-- C62, bpe scheme, any text: no command fails, and each line becomes what the API calls give for it. -/
theorem C62_bpe_api {tbl : List Ty} {s : Scheme} (h : Scheme.make .bpe tbl = .ok s) (hi : Indexed tbl) (b : Bool) {text : Str}
    {ls : List Str} (hl : Lines text ls) :
    ∃ out ds, cliEncode s b text = (out, none) ∧ cliDecode s b out = (ds.flatMap (· ++ [10]), none) ∧
      List.Forall₂ (fun l d => ∃ ids, s.encode l = .ok ids ∧ s.decode ids = .ok d) ls ds := by
  have key : ∀ l i : Str, (i = l ∨ i = l ++ [10]) →
      ∃ d, LineOK s b i d ∧ ∃ ids, s.encode l = .ok ids ∧ s.decode ids = .ok d := by
    intro l i hli
    have hsp : split i = split l := by
      rcases hli with rfl | rfl
      · rfl
      · exact split_nl l
    obtain ⟨e1, e2⟩ := C11_encode_tokens (k := .bpe) (by simp) h (hsp ▸ tokens_split i) (tokens_split l)
    obtain ⟨ids, ps, h3, h4, h5⟩ := bpe_decode_encode h hi l
    have h6 : s.decodeStr ps = s.decode ids := by simp [Scheme.decode, h5]
    have h7 : ∃ d, s.decode ids = .ok d := by
      rw [← h6, Scheme.decodeStr, (make_bpe_ok h).2.1]
      exact ⟨_, rfl⟩
    obtain ⟨d, hd⟩ := h7
    refine ⟨d, ?_, ids, h3, hd⟩
    cases b with
    | true => exact lineOK_idx (e1.trans h3) hd
    | false =>
      refine lineOK_str ?_ (e2.trans h4) (h6.trans hd)
      obtain ⟨out, hg, he⟩ := bpeEncodeStr_spec h hi l
      rw [he] at h4
      cases h4
      intro p hp
      obtain ⟨o, ho, rfl⟩ := List.mem_map.1 hp
      refine greedy_tokens hg ?_ o ho
      intro c hc
      rw [bpeText, split_strip] at hc
      rcases List.mem_append.1 hc with hc | hc
      · rcases mem_join hc with hc | ⟨w, hw, hc⟩
        · simp at hc; subst hc; decide
        · exact (split_isToken hw).2 _ hc
      · simp at hc; subst hc; decide
  have h1 := inpLines_spec hl
  have h2 : ∃ ds, List.Forall₂ (LineOK s b) (inpLines text) ds ∧
      List.Forall₂ (fun l d => ∃ ids, s.encode l = .ok ids ∧ s.decode ids = .ok d) ls ds := by
    generalize inpLines text = is at h1
    clear hl
    induction h1 with
    | nil => exact ⟨[], .nil, .nil⟩
    | cons h3 _ ih =>
      obtain ⟨ds, h4, h5⟩ := ih
      obtain ⟨d, h6, h7⟩ := key _ _ h3
      exact ⟨d :: ds, .cons h6 h4, .cons h7 h5⟩
  obtain ⟨ds, h3, h4⟩ := h2
  obtain ⟨out, h5, h6⟩ := cli_of_lines h3
  exact ⟨out, ds, h5, h6, h4⟩

/-- C62: the pipe restores the whitespace-normalised lines of covered text, in piece mode and in index mode, for the word, char
and bpe schemes.  Covered: for the word scheme every token is in the vocabulary; for char and bpe every character is, and none is
the separator U+2581.  Missing from the full statement: the class scheme (`C62_class_*`) and the byte scheme (`C62_byte_*`), for
which it is false. -/
theorem C62_covered_partial {k : Kind} (hk : k = .word ∨ k = .char ∨ k = .bpe) {tbl : List Ty} {s : Scheme}
    (h : Scheme.make k tbl = .ok s) (hi : Indexed tbl) (b : Bool) {text : Str} {ls : List Str} {wss : List (List Str)}
    (hl : Lines text ls) (hw : List.Forall₂ Tokens ls wss)
    (hc : ∀ ws ∈ wss, ∀ w ∈ ws, if k = .word then w ∈ names tbl else ∀ c ∈ w, [c] ∈ names tbl ∧ c ≠ SP) :
    ∃ out, cliEncode s b text = (out, none) ∧
      cliDecode s b out = (wss.flatMap fun ws => List.intercalate [32] ws ++ [10], none) := by
  rcases hk with rfl | rfl | rfl
  · obtain ⟨out, h1, h2⟩ := C62_word h b hl hw
    refine ⟨out, h1, h2.trans ?_⟩
    congr 1
    apply List.flatMap_congr
    intro ws hws
    congr 2
    conv => rhs; rw [← List.map_id ws]
    apply List.map_congr_left
    intro w hw'
    have := hc ws hws w hw'
    simp at this
    simp [this]
  · obtain ⟨out, h1, h2⟩ := C62_char h b hl hw
    refine ⟨out, h1, h2.trans ?_⟩
    congr 1
    apply List.flatMap_congr
    intro ws hws
    have hcov : ∀ w ∈ ws, ∀ c ∈ w, [c] ∈ names tbl ∧ c ≠ SP := fun w hw' => by simpa using hc ws hws w hw'
    obtain ⟨l, hlw⟩ : ∃ l, Tokens l ws := by
      obtain ⟨l, _, h3⟩ := (forall₂_mem_right hw) ws hws
      exact ⟨l, h3⟩
    obtain ⟨ids, e1, e2⟩ := C02_char_round_trip h hlw
    obtain ⟨ids', e3, e4⟩ := C02_char_lossless h hlw hcov
    rw [e1] at e3
    cases e3
    rw [e2] at e4
    injection e4 with e4
    rw [← e4]
    congr 1
    apply List.flatMap_congr
    intro c hcm
    by_cases hs : c = SP
    · simp [hs]
    · rw [← join_eq_intercalate] at hcm
      rcases mem_join hcm with hcm | ⟨w, hw', hcw⟩
      · simp at hcm; exact absurd hcm hs
      · simp [hs, (hcov w hw' c hcw).1]
  · obtain ⟨out, ds, h1, h2, h3⟩ := C62_bpe_api h hi b hl
    refine ⟨out, h1, h2.trans ?_⟩
    have : ds = wss.map fun ws => List.intercalate [32] ws := by
      clear h1 h2 hl
      induction h3 generalizing wss with
      | nil => cases hw; rfl
      | cons h4 _ ih =>
        cases hw with
        | cons h5 h6 =>
          rw [List.map_cons, ← ih h6 (fun ws hws => hc ws (by simp [hws]))]
          obtain ⟨ids, e1, e2⟩ := h4
          obtain ⟨ids', e3, e4⟩ := C04_bpe_lossless h hi h5 (fun w hw' => by simpa using hc _ (by simp) w hw')
          rw [e1] at e3
          cases e3
          rw [e2] at e4
          injection e4 with e4
          rw [e4]
    rw [this, List.flatMap_map]

/-! ### class scheme -/

/-- C62, class scheme, index mode: known labels are restored (without surrounding whitespace). -/
theorem C62_class_idx_partial {tbl : List Ty} {s : Scheme} (h : Scheme.make .clasz tbl = .ok s) {text : Str} {ls : List Str}
    (hl : Lines text ls) (hc : ∀ l ∈ ls, strip l ∈ names tbl) :
    ∃ out, cliEncode s true text = (out, none) ∧ cliDecode s true out = (ls.flatMap fun l => strip l ++ [10], none) := by
  have := cli_of_lines (s := s) (b := true) (text := text) (ds := ls.map strip) ?_
  · obtain ⟨out, h3, h4⟩ := this
    exact ⟨out, h3, by rw [h4, List.flatMap_map]⟩
  · rw [List.forall₂_map_right_iff]
    have h1 := inpLines_spec hl
    generalize inpLines text = is at h1
    clear hl
    induction h1 with
    | nil => exact .nil
    | @cons l i _ _ h2 _ ih =>
      refine .cons ?_ (ih (fun l hm => hc l (by simp [hm])))
      have hst := strip_nl_of h2
      obtain ⟨ids, h3, h4⟩ := C10_labels_joined_partial h (labels := [i]) (fun l hm => by
        rw [List.mem_singleton] at hm; subst hm; exact hst ▸ hc _ (by simp))
      cases h3 with
      | cons h5 h6 =>
        cases h6
        refine lineOK_idx h5 (h4.trans ?_)
        simp [List.intercalate, hst]

/-- C62, class scheme, piece mode: labels that are blank or one token are restored, known or not. -/
theorem C62_class_str_partial {tbl : List Ty} {s : Scheme} (h : Scheme.make .clasz tbl = .ok s) {text : Str} {ls : List Str}
    (hl : Lines text ls) (hc : ∀ l ∈ ls, strip l = [] ∨ IsToken (strip l)) :
    ∃ out, cliEncode s false text = (out, none) ∧ cliDecode s false out = (ls.flatMap fun l => strip l ++ [10], none) := by
  have hk := (mkInvertible_ok (k := .clasz) h).2.1
  have := cli_of_lines (s := s) (b := false) (text := text) (ds := ls.map strip) ?_
  · obtain ⟨out, h3, h4⟩ := this
    exact ⟨out, h3, by rw [h4, List.flatMap_map]⟩
  · rw [List.forall₂_map_right_iff]
    have h1 := inpLines_spec hl
    generalize inpLines text = is at h1
    clear hl
    induction h1 with
    | nil => exact .nil
    | @cons l i _ _ h2 _ ih =>
      refine .cons ?_ (ih (fun l hm => hc l (by simp [hm])))
      have hst := strip_nl_of h2
      rcases hc l (by simp) with h3 | h3
      · refine ⟨⟨[], by simp, ?_, ?_⟩⟩
        · simp [encodeLine, Scheme.encodeStr, hk, hst, h3, join]
        · intro l' hl'
          simp [decodeLine, Scheme.decodeStr, hk, hl', h3, join]
      · refine lineOK_str (ps := [strip l]) (by simpa using h3) (by simp [Scheme.encodeStr, hk, hst]) ?_
        simp [Scheme.decodeStr, hk, join]

/-- C62 is false for labels of several words in piece mode: "New York" comes back as "New,York". -/
theorem C62_class_refuted {tbl : List Ty} {s : Scheme} (h : Scheme.make .clasz tbl = .ok s) :
    Lines (lit "New York\n") [lit "New York"] ∧
    cliEncode s false (lit "New York\n") = (lit "New York\n", none) ∧
    cliDecode s false (lit "New York\n") = (lit "New,York\n", none) := by
  have hk := (mkInvertible_ok (k := .clasz) h).2.1
  refine ⟨?_, ?_, ?_⟩
  · exact Lines.lf (l := lit "New York") (r := []) (by decide) .nil
  · have : inpLines (lit "New York\n") = [lit "New York\n"] := by decide
    simp only [cliEncode, this, genMap, encodeLine, Scheme.encodeStr, hk, Bool.false_eq_true, if_false]
    decide
  · have : inpLines (lit "New York\n") = [lit "New York\n"] := by decide
    simp only [cliDecode, this, genMap, decodeLine, Scheme.decodeStr, hk, Bool.false_eq_true, if_false]
    decide

/-! ### byte scheme -/

/-- C62, byte scheme: one line without line break and without code points below 16 is restored in both modes. -/
theorem C62_byte_partial {s : Scheme} (h : Scheme.make .byte [] = .ok s) (b : Bool) (text : String) (hne : lit text ≠ [])
    (h16 : ∀ c ∈ text.toList, 16 ≤ c.toNat) :
    ∃ out, cliEncode s b (lit text) = (out, none) ∧ cliDecode s b out = (lit text ++ [10], none) := by
  have hk := make_byte_ok h
  have h16' : ∀ c ∈ lit text, 16 ≤ c := by
    intro c hc
    obtain ⟨d, hd, rfl⟩ := List.mem_map.1 hc
    exact h16 d hd
  have hnb : NoBreak (lit text) := ⟨fun hm => by have := h16' _ hm; omega, fun hm => by have := h16' _ hm; omega⟩
  have hin : inpLines (lit text) = [lit text] := by rw [inpLines, univNewlines_id hnb.2, keepLines_last hnb.1 hne]
  have := cli_of_lines (s := s) (b := b) (text := lit text) (ds := [lit text]) ?_
  · obtain ⟨out, h3, h4⟩ := this
    exact ⟨out, h3, by rw [h4]; simp⟩
  · rw [hin]
    refine .cons ?_ .nil
    obtain ⟨ids, h1, h2⟩ := C08_byte_round_trip_partial h text h16
    cases b with
    | true => exact lineOK_idx h1 h2
    | false =>
      obtain ⟨bs, he, hb⟩ := utf8Encode_ok (lit text) (lit_scalar text)
      rw [hk.encode he] at h1
      cases h1
      refine lineOK_str (ps := bs.map codeToStr) ?_ (by simp [Scheme.encodeStr, hk.kind, he]) ?_
      · intro p hp
        obtain ⟨c, hc, rfl⟩ := List.mem_map.1 hp
        exact codeToStr_token c (hb c hc)
      · rw [Scheme.decode, hk.namesOf bs hb] at h2
        exact h2

/-- C62 is false for the byte scheme whenever a line ends with a line break, as the lines of ordinary files do: the line break is
encoded as the piece `a`, decoding then stops with ValueError before anything is written, in both modes. -/
theorem C62_byte_refuted {s : Scheme} (h : Scheme.make .byte [] = .ok s) (b : Bool) (text : String)
    (h16 : ∀ c ∈ text.toList, 16 ≤ c.toNat) (rest : Str) :
    ∃ out e, cliEncode s b (lit text ++ 10 :: rest) = (out, e) ∧ cliDecode s b out = ([], some .value) := by
  have hk := make_byte_ok h
  have h16' : ∀ c ∈ lit text, 16 ≤ c := by
    intro c hc
    obtain ⟨d, hd, rfl⟩ := List.mem_map.1 hc
    exact h16 d hd
  have hnb : NoBreak (lit text) := ⟨fun hm => by have := h16' _ hm; omega, fun hm => by have := h16' _ hm; omega⟩
  have hin : inpLines (lit text ++ 10 :: rest) = (lit text ++ [10]) :: inpLines rest := by
    rw [inpLines, univNewlines_append hnb.2, univNewlines.eq_3 10 _ (fun _ e => absurd e (by decide)) (by decide),
      keepLines_append hnb.1]
    rfl
  obtain ⟨bs, he, hb⟩ := utf8Encode_ok (lit text) (lit_scalar text)
  have hge := utf8Encode_ge h16' he
  have he' : utf8Encode (lit text ++ [10]) = .ok (bs ++ [10]) := utf8Encode_append he (by decide)
  have hb' : ∀ c ∈ bs ++ [10], c < 256 := by
    intro c hc
    rcases List.mem_append.1 hc with hc | hc
    · exact hb c hc
    · simp at hc; omega
  have hdec : s.decodeStr ((bs ++ [10]).map codeToStr) = .error .value := by
    simp only [Scheme.decodeStr, hk.kind]
    have := hk.byteDecode_run (bs ++ [10]) hb' [] []
    simp only [List.append_nil, List.nil_append] at this
    rw [this, byteDecode, if_neg (by simp), composeStr, List.map_append, List.flatten_append]
    have e : ([10].map codeToStr).flatten = [97] := by decide
    rw [e, fromHex_odd bs (fun c hc => ⟨hge c hc, hb c hc⟩)]
  obtain ⟨ws, hws, h1, h2⟩ : ∃ ws : List Str, (∀ w ∈ ws, IsToken w) ∧ encodeLine s b (lit text ++ [10]) = .ok (join [32] ws) ∧
      ∀ l, split l = ws → decodeLine s b l = .error .value := by
    cases b with
    | true =>
      refine ⟨((bs ++ [10]).map fun (n : Nat) => (n : Int)).map intStr, ?_, ?_, ?_⟩
      · intro w hw
        obtain ⟨i, _, rfl⟩ := List.mem_map.1 hw
        exact intStr_isToken i
      · rw [encodeLine, if_pos rfl, hk.encode he']
      · intro l hl
        simp only [decodeLine, if_true, hl, pyInts_intStr, Scheme.decode]
        rw [hk.namesOf _ hb']
        exact hdec
    | false =>
      refine ⟨(bs ++ [10]).map codeToStr, ?_, ?_, ?_⟩
      · intro p hp
        obtain ⟨c, hc, rfl⟩ := List.mem_map.1 hp
        exact codeToStr_token c (hb' c hc)
      · simp [encodeLine, Scheme.encodeStr, hk.kind, he']
      · intro l hl
        simp only [decodeLine, Bool.false_eq_true, if_false, hl]
        exact hdec
  have hj := join_noBreak hws
  refine ⟨_, _, rfl, ?_⟩
  have hout : ∃ more, (cliEncode s b (lit text ++ 10 :: rest)).1 = join [32] ws ++ 10 :: more := by
    rw [cliEncode, hin, genMap, h1]
    exact ⟨(genMap (encodeLine s b) none (inpLines rest)).out.flatMap (· ++ [10]), by simp [writeLines]⟩
  obtain ⟨more, hmore⟩ := hout
  change cliDecode s b (cliEncode s b (lit text ++ 10 :: rest)).1 = _
  rw [hmore, cliDecode]
  have hin' : inpLines (join [32] ws ++ 10 :: more) = (join [32] ws ++ [10]) :: inpLines more := by
    rw [inpLines, univNewlines_append hj.2, univNewlines.eq_3 10 _ (fun _ e => absurd e (by decide)) (by decide),
      keepLines_append hj.1]
    rfl
  rw [hin', genMap, h2 _ (by rw [split_nl, split_join_space hws])]
  rfl

/-- the commands on small files: CR LF, an empty line, no line break at the end -/
example : Lines (lit "a b\r\n\n  ba") [lit "a b", [], lit "  ba"] :=
  Lines.crlf (l := lit "a b") (r := lit "\n  ba") (by decide)
    (Lines.lf (l := []) (r := lit "  ba") (by decide) (.last (by decide) (by decide)))
example : (withScheme .bpe (exTable Level.subword ["a", "b", "ab", "ba"]) fun s =>
    .ok (cliEncode s false (lit "a b\r\n\n  ba"))) = .ok (lit "a ▁ b ▁\n▁\nba ▁\n", none) := by decide
example : (withScheme .bpe (exTable Level.subword ["a", "b", "ab", "ba"]) fun s =>
    .ok (cliDecode s false (lit "a ▁ b ▁\n▁\nba ▁\n"))) = .ok (lit "a b\n\nba\n", none) := by decide
example : (withScheme .bpe (exTable Level.subword ["a", "b", "ab", "ba"]) fun s =>
    .ok (cliEncode s true (lit "a b\r\n\n  ba"))) = .ok (lit "6 5 7 5\n5\n9 5\n", none) := by decide
example : (withScheme .word (exTable Level.word ["New", "York"]) fun s =>
    .ok (cliEncode s true (lit "New York New\nJersey\n"))) = .ok (lit "6 7 6\n1\n", none) := by decide
example : (withScheme .clasz [⟨lit "New York", 0, 0, 1, []⟩, ⟨lit "Paris", 0, 1, 1, []⟩] fun s =>
    .ok (cliEncode s true (lit "Paris\n New York \n"), cliDecode s true (lit "1\n0\n"))) =
    .ok ((lit "1\n0\n", none), (lit "Paris\nNew York\n", none)) := by decide

end Verif
