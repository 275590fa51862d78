import Verif.Lemmas.Replace
import Verif.Props.Bytes
import Verif.Props.Shrink
/-!
# C102: files opened by `IO`, and `shrink_vocab` on bytes
-/

namespace Verif
open Spec

/-- C102, reading: whatever the bytes are and however they arrive, the text read is the one specified, and no other. -/
theorem C102_text (chunks : List (List Nat)) (t : Str) : readReplace [] chunks = t ↔ Replaced chunks.flatten t := by
  rw [replaced_iff, readReplace_ok, List.nil_append]
  exact eq_comm

/-- bytes that are not UTF-8: a stray continuation byte, an incomplete sequence before a letter, a surrogate, an incomplete sequence at the end,
arriving in three chunks -/
example : readReplace [] [[0x61, 0x80, 0xE2], [0x82, 0x62, 0xED, 0xA0, 0x80, 0xC3], [0xA9, 0xF0, 0x9F]] =
    [0x61, 0xFFFD, 0xFFFD, 0x62, 0xFFFD, 0xFFFD, 0xFFFD, 0xE9, 0xFFFD] := by decide +kernel

/-- C102: text is read as it was encoded. -/
theorem C102_valid {s : String} {chunks : List (List Nat)} (h : chunks.flatten = utf8 s) : readReplace [] chunks = lit s := by
  rw [readReplace_ok, List.nil_append, h]
  exact utf8Decode_encode (encode_lit s)

example : ([[0xE2, 0x82], [], [0xAC]] : List (List Nat)).flatten = utf8 "€" := by decide +kernel

theorem lfLines_keep : ∀ (text : Str), LfLines text (keepLines text)
  | [] => ⟨rfl, by simp [keepLines], by simp [keepLines]⟩
  | c :: r => by
    obtain ⟨h1, h2, h3⟩ := lfLines_keep r
    rw [keepLines]
    split
    · rename_i hc
      subst hc
      refine ⟨by simp [h1], ?_, ?_⟩
      · intro l hl
        rcases List.mem_cons.1 hl with rfl | hl
        · simp
        · exact h2 l hl
      · intro l hl
        cases hk : keepLines r with
        | nil => rw [hk] at hl; simp at hl
        | cons a b =>
          rw [hk, List.dropLast_cons_cons] at hl
          rcases List.mem_cons.1 hl with rfl | hl
          · rfl
          · exact h3 l (hk ▸ hl)
    · rename_i hc
      cases hk : keepLines r with
      | nil =>
        rw [hk] at h1
        simp only [List.flatten_nil] at h1
        subst h1
        refine ⟨rfl, ?_, by simp [consHead]⟩
        simp [consHead]
      | cons a b =>
        rw [hk] at h1 h2 h3
        simp only [consHead]
        have ha := h2 a (by simp)
        refine ⟨by simpa using h1, ?_, ?_⟩
        · intro l hl
          rcases List.mem_cons.1 hl with rfl | hl
          · refine ⟨by simp, ?_⟩
            obtain ⟨x, y, rfl⟩ := List.exists_cons_of_ne_nil ha.1
            rw [List.dropLast_cons_cons]
            intro hm
            rcases List.mem_cons.1 hm with e | hm
            · exact hc e.symm
            · exact ha.2 hm
          · exact h2 l (by simp [hl])
        · intro l hl
          cases b with
          | nil => simp at hl
          | cons d b =>
            rw [List.dropLast_cons_cons] at hl h3
            rcases List.mem_cons.1 hl with rfl | hl
            · have := h3 a (by simp)
              obtain ⟨x, y, rfl⟩ := List.exists_cons_of_ne_nil ha.1
              rw [List.getLast?_cons_cons]; exact this
            · exact h3 l (by simp [hl])

theorem lfLines_unique : ∀ {ls : List Str} {text : Str}, LfLines text ls → keepLines text = ls
  | [], text, h => by
    have := h.1
    simp only [List.flatten_nil] at this
    subst this; rfl
  | [l], text, h => by
    obtain ⟨h1, h2, _⟩ := h
    obtain ⟨hne, hb⟩ := h2 l (by simp)
    simp only [List.flatten_cons, List.flatten_nil, List.append_nil] at h1
    subst h1
    by_cases hl : l.getLast? = some 10
    · have e : l = l.dropLast ++ [10] := by
        have := List.dropLast_append_getLast hne
        rw [List.getLast?_eq_some_getLast hne] at hl
        rw [Option.some.inj hl] at this
        exact this.symm
      have := keepLines_append hb []
      rw [← e] at this
      rw [this]; rfl
    · refine keepLines_last ?_ hne
      intro hm
      rw [← List.dropLast_append_getLast hne] at hm
      rcases List.mem_append.1 hm with hm | hm
      · exact hb hm
      · simp only [List.mem_singleton] at hm
        exact hl (by rw [List.getLast?_eq_some_getLast hne, ← hm])
  | l :: m :: ls, text, h => by
    obtain ⟨h1, h2, h3⟩ := h
    obtain ⟨hne, hb⟩ := h2 l (by simp)
    have hl := h3 l (by simp)
    have e : l = l.dropLast ++ [10] := by
      have := List.dropLast_append_getLast hne
      rw [List.getLast?_eq_some_getLast hne] at hl
      rw [Option.some.inj hl] at this
      exact this.symm
    have ih := lfLines_unique (ls := m :: ls) (text := (m :: ls).flatten) ⟨rfl, fun x hx => h2 x (by simp [hx]),
      fun x hx => h3 x (by rw [List.dropLast_cons_cons]; simp [hx])⟩
    have := keepLines_append hb (m :: ls).flatten
    rw [ih] at this
    rw [← h1, List.flatten_cons]
    calc keepLines (l ++ (m :: ls).flatten) = keepLines (l.dropLast ++ 10 :: (m :: ls).flatten) := by
          congr 1
          conv_lhs => rw [e]
          simp
      _ = _ := by rw [this, ← e]

/-- C102, lines of plain files: the lines end at line feeds and nowhere else. -/
theorem C102_lines {f : IoFile} (hg : f.gz = false) {t : Str} (ht : Replaced f.chunks.flatten t) (ls : List Str) : f.lines = ls ↔ LfLines t ls := by
  rw [IoFile.lines, hg, (C102_text _ _).2 ht]
  simp only [Bool.false_eq_true, if_false]
  exact ⟨fun h => h ▸ lfLines_keep t, lfLines_unique⟩

/-- C102, lines of `.gz` files: they also end at carriage returns. -/
theorem C102_lines_gz {f : IoFile} (hg : f.gz = true) {t : Str} (ht : Replaced f.chunks.flatten t) {ls : List Str} (hl : Lines t ls) :
    List.Forall₂ (fun i l => i = l ∨ i = l ++ [10]) f.lines ls := by
  rw [IoFile.lines, hg, (C102_text _ _).2 ht]
  exact (inpLines_spec hl).flip

example : (⟨false, [[97, 13], [10, 98, 13, 99]]⟩ : IoFile).lines = [[97, 13, 10], [98, 13, 99]] ∧
    (⟨true, [[97, 13], [10, 98, 13, 99]]⟩ : IoFile).lines = [[97, 10], [98, 10], [99]] := by decide +kernel

/-- C102: what `IO.writer` writes, `IO.reader` reads, also line feeds and carriage returns. -/
theorem C102_round_trip (s : String) {chunks : List (List Nat)} (h : chunks.flatten = ioWrite (lit s)) : readReplace [] chunks = lit s := by
  refine C102_valid ?_
  rw [h, ioWrite, lit, utf8, List.flatMap_map, List.map_flatMap]
  exact congrArg (fun f => s.toList.flatMap f) (funext fun c => by simp only [utf8Char_eq])

/-- C102: a `.gz` file too, if there are no carriage returns, as in the counts that `nlcodec-learn` keeps (nlcodec/learn.py:81-88). -/
theorem C102_gz_round_trip (s : String) (hr : '\r' ∉ s.toList) {f : IoFile} (h : f.chunks.flatten = ioWrite (lit s)) : LfLines (lit s) f.lines := by
  have h13 : 13 ∉ lit s := by
    intro hm
    obtain ⟨c, hc, e⟩ := List.mem_map.1 hm
    have : c = '\r' := Char.toNat_inj.1 (by rw [e]; decide)
    exact hr (this ▸ hc)
  rw [IoFile.lines, C102_round_trip s h]
  split
  · rw [inpLines, univNewlines_id h13]; exact lfLines_keep _
  · exact lfLines_keep _

example : '\r' ∉ "a\t2\nb\t1\n".toList := by decide

/-- C102: of other texts each surrogate comes back as a question mark. -/
theorem C102_surrogates (t : Str) (ht : ∀ c ∈ t, c < 0x110000) :
    readReplace [] [ioWrite t] = t.map fun c => if 0xD800 ≤ c ∧ c ≤ 0xDFFF then 63 else c := by
  have h : utf8Encode (t.map fun c => if 0xD800 ≤ c ∧ c ≤ 0xDFFF then 63 else c) = .ok (ioWrite t) := by
    induction t with
    | nil => rfl
    | cons c t ih =>
      have ih := ih fun d hd => ht d (by simp [hd])
      rw [List.map_cons, utf8Encode, ih]
      have e : ioWrite (c :: t) = (match utf8Char c with | .ok bs => bs | .error _ => [63]) ++ ioWrite t := rfl
      by_cases hs : 0xD800 ≤ c ∧ c ≤ 0xDFFF
      · rw [e, if_pos hs]
        have h1 : utf8Char c = .error .unicode := by
          rw [utf8Char, if_neg (by omega), if_neg (by omega), if_pos hs]
        rw [h1]
        rfl
      · obtain ⟨bs, hb, _⟩ := utf8Char_ok (c := c) ⟨ht c (by simp), hs⟩
        rw [e, if_neg hs, hb]
  rw [readReplace_ok]
  simp only [List.flatten_cons, List.flatten_nil, List.append_nil, List.nil_append]
  exact utf8Decode_encode h

example : readReplace [] [ioWrite [97, 0xDC80, 0x20AC]] = [97, 63, 0x20AC] := by decide +kernel

theorem replaced_sc {bs : List Nat} {t : Str} (h : Replaced bs t) : Sc t := by
  induction h with
  | nil => exact Sc.nil
  | char c _ ih => exact Sc.cons (utf8Char_scalar (utf8Char_bytes c)) ih
  | bad _ _ _ _ _ ih => exact Sc.cons (by unfold Scalar; omega) ih

theorem io_lines_sc (f : IoFile) : ∀ l ∈ f.lines, Sc l := by
  intro l hl
  have h := replaced_sc ((C102_text f.chunks _).1 rfl)
  rw [IoFile.lines] at hl
  split at hl
  · exact h.inpLines hl
  · exact h.sub fun c hc => mem_keepLines _ hl hc

/-- C102, `shrink_vocab`: for every scheme (the byte scheme with its own table) and files of any bytes, encoding does not fail.  The call succeeds as
described in C28 unless there is no id at all, when it raises ValueError. -/
theorem C102_shrink {k : Kind} {tbl : List Ty} {s : Scheme} (hs : Scheme.make k tbl = .ok s) (hb : k = .byte → tbl = [])
    (hi : Indexed s.table) (hk : KidsEarlier s.table) (files : List IoFile) (minFreq : Int) :
    ∃ encs, List.Forall₂ (fun l ids => s.encode l = .ok ids) (files.flatMap IoFile.lines) encs ∧
      (encs.flatten = [] → shrinkFiles s files minFreq = .error .value) ∧
      (encs.flatten ≠ [] → ∃ mapping new, shrinkFiles s files minFreq = .ok (mapping, new) ∧ mapping.Pairwise (· < ·) ∧
        (∀ i, i ∈ mapping ↔ Needed s.table encs.flatten minFreq i) ∧ Shrunk s.table mapping new) := by
  have hsc : ∀ l ∈ files.flatMap IoFile.lines, Sc l := by
    intro l hl
    obtain ⟨f, _, hf⟩ := List.mem_flatMap.1 hl
    exact io_lines_sc f l hf
  have henc : ∀ l, Sc l → ∃ ids, s.encode l = .ok ids := by
    intro l hl
    cases k with
    | word => obtain ⟨ids, a, _⟩ := C05_ids_in_range_word_char (.inl rfl) hs l; exact ⟨ids, a⟩
    | char => obtain ⟨ids, a, _⟩ := C05_ids_in_range_word_char (.inr rfl) hs l; exact ⟨ids, a⟩
    | bpe =>
      obtain ⟨h1, _⟩ := make_bpe_ok hs
      obtain ⟨ids, a, _⟩ := C05_ids_in_range_bpe hs (h1 ▸ hi) l; exact ⟨ids, a⟩
    | clasz => obtain ⟨i, a, _⟩ := C05_ids_class hs l; exact ⟨[i], a⟩
    | byte =>
      have := hb rfl
      subst this
      exact (C08_byte_encode_total hs l).2 (exists_lit hl)
  have hex : ∀ ls : List Str, (∀ l ∈ ls, Sc l) → ∃ encs, List.Forall₂ (fun l ids => s.encode l = .ok ids) ls encs := by
    intro ls hls
    induction ls with
    | nil => exact ⟨[], .nil⟩
    | cons l ls ih =>
      obtain ⟨ids, h1⟩ := henc l (hls l (by simp))
      obtain ⟨encs, h2⟩ := ih fun m hm => hls m (by simp [hm])
      exact ⟨ids :: encs, .cons h1 h2⟩
  obtain ⟨encs, he⟩ := hex _ hsc
  refine ⟨encs, he, fun h0 => ?_, fun hne => C28_keeps_needed hs hi hk he hne minFreq⟩
  refine C28_no_ids_raises (lines := files.flatMap IoFile.lines) (fun l hl => ?_) minFreq
  obtain ⟨ids, hm, hids⟩ := mem_of_forall₂_right he.flip l hl
  rw [List.flatten_eq_nil_iff] at h0
  rw [hids, h0 ids hm]

/-- bytes that are not UTF-8: the replacement character is unknown -/
example : (withScheme .bpe exShrinkTbl fun s => (shrinkFiles s [⟨false, [[97, 98, 0xE2], [0x82, 10]]⟩, ⟨true, []⟩] 1).map (·.1)) =
    .ok [0, 1, 2, 3, 4, 5, 6, 7, 9] := by decide +kernel

example : (withScheme .bpe exShrinkTbl fun s => shrinkFiles s [⟨false, [[]]⟩] 1) = .error .value := by decide +kernel

theorem split_append_white (a : Str) {c : Nat} (hc : isSpace c = true) (b : Str) : split (a ++ c :: b) = split a ++ split b := by
  have := tokens_split a
  generalize split a = ws at this
  induction this with
  | blank hg => rw [split_append_left hg, split_cons_space hc]; rfl
  | @last g w h hg hw hh =>
    rw [List.append_assoc, List.append_assoc, split_append_left hg]
    cases h with
    | nil => rw [List.nil_append, split_token_sep hw hc]; rfl
    | cons d h =>
      rw [List.cons_append, split_token_sep hw (white_iff.1 (hh d (by simp))), split_append_left (fun x hx => hh x (by simp [hx])), split_cons_space hc]
      rfl
  | @cons g w r d ws hg hw hd _ _ ih =>
    rw [List.append_assoc, List.append_assoc, split_append_left hg, List.cons_append, split_token_sep hw (white_iff.1 hd), ih]
    rfl

theorem split_keepLines : ∀ (ls : List Str) (t : Str), LfLines t ls → ls.flatMap split = split t
  | [], t, h => by have := h.1; simp only [List.flatten_nil] at this; subst this; rfl
  | [l], t, h => by have := h.1; simp at this; subst this; simp
  | l :: m :: ls, t, h => by
    obtain ⟨h1, h2, h3⟩ := h
    obtain ⟨hne, _⟩ := h2 l (by simp)
    have hl := h3 l (by simp)
    have e : l = l.dropLast ++ [10] := by
      have := List.dropLast_append_getLast hne
      rw [List.getLast?_eq_some_getLast hne] at hl
      rw [Option.some.inj hl] at this
      exact this.symm
    have ih := split_keepLines (m :: ls) (m :: ls).flatten ⟨rfl, fun x hx => h2 x (by simp [hx]),
      fun x hx => h3 x (by rw [List.dropLast_cons_cons]; simp [hx])⟩
    have e2 : t = l.dropLast ++ 10 :: (m :: ls).flatten := by
      rw [← h1, List.flatten_cons]
      conv_lhs => rw [e]
      simp
    rw [List.flatMap_cons, ih, e2, split_append_white _ (by decide)]
    conv_lhs => rw [e]
    rw [split_nl]

theorem split_univNewlines : ∀ (t a : Str), split (a ++ univNewlines t) = split (a ++ t) := by
  intro t
  induction t using univNewlines.induct with
  | case1 r ih =>
    intro a
    rw [univNewlines, split_append_white _ (by decide), split_append_white _ (by decide), split_cons_space (by decide), ← List.nil_append (univNewlines r), ih []]
    rfl
  | case2 r hr ih =>
    intro a
    rw [univNewlines.eq_2 _ hr, split_append_white _ (by decide), split_append_white _ (by decide), ← List.nil_append (univNewlines r), ih []]
    rfl
  | case3 c r h1 h2 ih =>
    intro a
    rw [univNewlines.eq_3 _ _ h1 h2]
    have := ih (a ++ [c])
    simpa using this
  | case4 => intro a; rfl

theorem split_io (f : IoFile) : f.lines.flatMap split = split (readReplace [] f.chunks) := by
  rw [IoFile.lines]
  split
  · rw [inpLines, split_keepLines _ _ (lfLines_keep _)]
    exact split_univNewlines _ []
  · exact split_keepLines _ _ (lfLines_keep _)

theorem shrink_congr {s : Scheme} {l1 l2 : List Str} {e1 e2 : List (List Int)} (h1 : List.Forall₂ (fun l ids => s.encode l = .ok ids) l1 e1)
    (h2 : List.Forall₂ (fun l ids => s.encode l = .ok ids) l2 e2) (he : e1.flatten = e2.flatten) (minFreq : Int) :
    shrinkVocab s l1 minFreq = shrinkVocab s l2 minFreq := by
  simp only [shrinkVocab, shrinkFreqs_ok h1, shrinkFreqs_ok h2, he]

/-- C102, independence of compression, for word vocabularies (missing: the other schemes): only the words count, so files whose texts have the same words give the same result, in whatever lines, chunks and
compressed or not. -/
theorem C102_words_partial {tbl : List Ty} {s : Scheme} (hs : Scheme.make .word tbl = .ok s) {files files' : List IoFile} {ts ts' : List Str} {ws : List (List Str)}
    {ws' : List (List Str)} (h1 : List.Forall₂ (fun (f : IoFile) t => Replaced f.chunks.flatten t) files ts) (h2 : List.Forall₂ Tokens ts ws)
    (h1' : List.Forall₂ (fun (f : IoFile) t => Replaced f.chunks.flatten t) files' ts') (h2' : List.Forall₂ Tokens ts' ws')
    (hw : ws.flatten = ws'.flatten) (minFreq : Int) : shrinkFiles s files minFreq = shrinkFiles s files' minFreq := by
  obtain ⟨_, hkind, hd, _⟩ := make_word_ok hs
  have henc : ∀ l : Str, s.encode l = .ok ((split l).map s.idOf) := by
    intro l
    rw [Scheme.encode, Scheme.encodeStr, hkind]
    dsimp only
    exact idsOf_eq (by rw [hkind]; decide) hd _
  have hsp : ∀ (files : List IoFile) (ts : List Str) (ws : List (List Str)), List.Forall₂ (fun (f : IoFile) t => Replaced f.chunks.flatten t) files ts →
      List.Forall₂ Tokens ts ws → (readAsStream files).flatMap split = ws.flatten := by
    intro files
    induction files with
    | nil => intro ts ws h1 h2; cases h1; cases h2; rfl
    | cons f files ih =>
      intro ts ws h1 h2
      cases h1 with
      | cons a1 a2 =>
        cases h2 with
        | cons b1 b2 =>
          have := ih _ _ a2 b2
          rw [readAsStream] at this ⊢
          rw [List.flatMap_cons, List.flatMap_append, this, split_io, (C102_text _ _).2 a1, split_of_tokens b1]
          rfl
  have hall : ∀ ls : List Str, List.Forall₂ (fun l ids => s.encode l = .ok ids) ls (ls.map fun l => (split l).map s.idOf) := by
    intro ls
    induction ls with
    | nil => exact .nil
    | cons l ls ih => exact .cons (henc l) ih
  refine shrink_congr (hall _) (hall _) ?_ minFreq
  have hf : ∀ ls : List Str, (ls.map fun l => (split l).map s.idOf).flatten = (ls.flatMap split).map s.idOf := by
    intro ls
    rw [List.map_flatMap, List.flatMap_def]
  rw [hf, hf, hsp _ _ _ h1 h2, hsp _ _ _ h1' h2', hw]

example : (withScheme .word (reservedTypes ++ [⟨lit "a", 0, 6, 1, []⟩, ⟨lit "b", 0, 7, 1, []⟩]) fun s =>
      (shrinkFiles s [⟨false, [[98, 13, 0xFF], [10, 98]]⟩] 2).map (·.1)) = .ok [0, 1, 2, 3, 4, 5, 7] ∧
    (withScheme .word (reservedTypes ++ [⟨lit "a", 0, 6, 1, []⟩, ⟨lit "b", 0, 7, 1, []⟩]) fun s =>
      (shrinkFiles s [⟨true, [[98, 32]]⟩, ⟨true, [[0xFF, 13, 98]]⟩] 2).map (·.1)) = .ok [0, 1, 2, 3, 4, 5, 7] := by decide +kernel

/-- C102 does not extend to the byte scheme: the same content compressed or not gives different vocabularies, because only in `.gz` files carriage
returns are turned into line feeds. -/
theorem C102_gz_refuted {s : Scheme} (hs : Scheme.make .byte [] = .ok s) :
    (shrinkFiles s [⟨false, [[97, 13, 10]]⟩] 1).map (·.1) = .ok [10, 13, 97, 256, 257] ∧
    (shrinkFiles s [⟨true, [[97, 13, 10]]⟩] 1).map (·.1) = .ok [10, 97, 256, 257] := by
  have h1 : (withScheme .byte [] fun s => (shrinkFiles s [⟨false, [[97, 13, 10]]⟩] 1).map (·.1)) = .ok [10, 13, 97, 256, 257] := by decide +kernel
  have h2 : (withScheme .byte [] fun s => (shrinkFiles s [⟨true, [[97, 13, 10]]⟩] 1).map (·.1)) = .ok [10, 97, 256, 257] := by decide +kernel
  rw [withScheme, hs] at h1 h2
  exact ⟨h1, h2⟩

/-- C08, decoding of any bytes of at least 16, not only those of a text: the text is the one specified. -/
theorem C08_decode_bytes {s : Scheme} (hs : Scheme.make .byte [] = .ok s) {bs : List Nat} (hb : ∀ b ∈ bs, 16 ≤ b ∧ b < 256) (t : Str) :
    s.decode (bs.map fun (b : Nat) => (b : Int)) = .ok t ↔ Replaced bs t := by
  have h := make_byte_ok hs
  have hd : s.decode (bs.map fun (b : Nat) => (b : Int)) = .ok (utf8Decode bs) := by
    simp only [Scheme.decode, h.namesOf bs fun b hm => (hb b hm).2, Scheme.decodeStr, h.kind]
    have := h.byteDecode_run bs (fun b hm => (hb b hm).2) [] []
    simp only [List.append_nil, List.nil_append] at this
    rw [this, byteDecode, composeStr_codes bs hb]
  rw [hd, replaced_iff]
  exact ⟨fun e => (Except.ok.inj e).symm, fun e => congrArg _ e.symm⟩

example : (withScheme .byte [] fun s => s.decode [0x61, 0xE2, 0x82, 0x62]) = .ok [0x61, 0xFFFD, 0x62] := by decide +kernel

end Verif
