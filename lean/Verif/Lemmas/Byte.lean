import Verif.Lemmas.Utf8
import Verif.Lemmas.Scheme
import Mathlib.Data.List.Nodup
/-! # The byte scheme on its built-in vocabulary -/

namespace Verif

theorem byteVocab_names : byteVocab.map (·.name) = (List.range 256).map codeToStr ++ [lit "<s>", lit "</s>"] := by
  simp [byteVocab, List.map_map, Function.comp_def]

theorem codeToStr_head (b : Nat) (h : b < 256) : ∀ r, codeToStr b ≠ 60 :: r := by
  intro r e
  have key : ∀ d, d < 16 → hexDigit d ≠ 60 := by decide
  rw [codeToStr] at e
  split at e
  · rename_i hb; exact key b hb (by simpa using (List.cons.inj e).1)
  · exact key (b / 16) (by omega) (by simpa using (List.cons.inj e).1)

theorem byteVocab_nodup : (byteVocab.map (·.name)).Nodup := by
  rw [byteVocab_names, List.nodup_append]
  refine ⟨?_, by decide, ?_⟩
  · refine List.Nodup.map_on ?_ (List.nodup_range)
    intro a ha b hb h
    exact codeToStr_inj (List.mem_range.1 ha) (List.mem_range.1 hb) h
  · intro a ha b hb
    obtain ⟨c, hc, rfl⟩ := List.mem_map.1 ha
    have h60 := codeToStr_head c (List.mem_range.1 hc)
    simp only [List.mem_cons, List.not_mem_nil, or_false] at hb
    rcases hb with rfl | rfl
    · exact h60 _
    · exact h60 _

theorem byteVocab_length : byteVocab.length = 258 := by simp [byteVocab]

theorem byteVocab_get {c : Nat} (h : c < 256) :
    byteVocab[c]? = some { name := codeToStr c, level := Level.byte, idx := c, freq := -1, kids := [] } := by
  rw [byteVocab, List.getElem?_append_left (by simpa using h)]
  simp [h]

theorem byteVocab_get256 : byteVocab[256]? =
    some { name := lit "<s>", level := Level.reserved, idx := 256, freq := -1, kids := [] } := by
  rw [byteVocab, List.getElem?_append_right (by simp)]
  simp

theorem byteVocab_get257 : byteVocab[257]? =
    some { name := lit "</s>", level := Level.reserved, idx := 257, freq := -1, kids := [] } := by
  rw [byteVocab, List.getElem?_append_right (by simp)]
  simp

/-- facts about the default byte scheme -/
structure ByteOK (s : Scheme) : Prop where
  kind : s.kind = .byte
  table : s.table = byteVocab
  code : ∀ c, c < 256 → Dict.get? s.s2i (codeToStr c) = some c
  bos : Dict.get? s.s2i (lit "<s>") = some 256
  eos : Dict.get? s.s2i (lit "</s>") = some 257

theorem make_byte_ok {s : Scheme} (h : Scheme.make .byte [] = .ok s) : ByteOK s := by
  simp only [Scheme.make, List.isEmpty_nil, if_true] at h
  obtain ⟨h1, h2, h3, h4⟩ := mkInvertible_ok h
  have key : ∀ c t, byteVocab[c]? = some t → Dict.get? s.s2i t.name = some c := by
    intro c t ht
    rw [h3.get, Scheme.idxToStr, h1]
    exact idxOf?_eq_of_nodup h4 (by simp [ht])
  exact ⟨h2, h1, fun c hc => key c _ (byteVocab_get hc), key 256 _ byteVocab_get256, key 257 _ byteVocab_get257⟩

theorem make_byte_exists : ∃ s, Scheme.make .byte [] = .ok s := by
  simp only [Scheme.make, List.isEmpty_nil, if_true]
  exact mkInvertible_of_nodup .byte byteVocab_nodup

theorem ByteOK.idsOf {s : Scheme} (h : ByteOK s) (bs : List Nat) (hb : ∀ b ∈ bs, b < 256) :
    s.idsOf (bs.map codeToStr) = .ok (bs.map fun (b : Nat) => (b : Int)) := by
  induction bs with
  | nil => rfl
  | cons b bs ih =>
    simp only [List.map_cons, Scheme.idsOf, h.kind, h.code b (hb b (by simp)), ih (fun c hc => hb c (by simp [hc]))]

theorem ByteOK.encode {s : Scheme} (h : ByteOK s) {t : Str} {bs : List Nat} (he : utf8Encode t = .ok bs) :
    s.encode t = .ok (bs.map fun (b : Nat) => (b : Int)) := by
  have hb : ∀ b ∈ bs, b < 256 := by
    obtain ⟨bs', e1, e2⟩ := utf8Encode_ok t (utf8Encode_scalar he)
    rw [he] at e1; cases e1; exact e2
  simp only [Scheme.encode, Scheme.encodeStr, h.kind, he]
  exact h.idsOf bs hb

theorem ByteOK.namesOf {s : Scheme} (h : ByteOK s) (bs : List Nat) (hb : ∀ b ∈ bs, b < 256) :
    Verif.namesOf s.table (bs.map fun (b : Nat) => (b : Int)) = .ok (bs.map codeToStr) := by
  induction bs with
  | nil => rfl
  | cons b bs ih =>
    have : pyIndex s.table (b : Int) = .ok _ := pyIndex_some (by rw [h.table]; exact byteVocab_get (hb b (by simp)))
    simp only [List.map_cons, Verif.namesOf, this, ih (fun c hc => hb c (by simp [hc]))]

theorem ByteOK.code_not_reserved {s : Scheme} (h : ByteOK s) {c : Nat} (hc : c < 256) : s.pieceReserved (codeToStr c) = false := by
  simp only [Scheme.pieceReserved, h.code c hc, h.table, byteVocab_get hc]
  rfl

theorem ByteOK.bos_reserved {s : Scheme} (h : ByteOK s) : s.pieceReserved (lit "<s>") = true := by
  simp only [Scheme.pieceReserved, h.bos, h.table, byteVocab_get256]
  decide

theorem ByteOK.eos_reserved {s : Scheme} (h : ByteOK s) : s.pieceReserved (lit "</s>") = true := by
  simp only [Scheme.pieceReserved, h.eos, h.table, byteVocab_get257]
  decide

/-- a run of byte pieces only fills the buffer -/
theorem ByteOK.byteDecode_run {s : Scheme} (h : ByteOK s) (bs : List Nat) (hb : ∀ b ∈ bs, b < 256) (rest buf : List Str) :
    byteDecode s (bs.map codeToStr ++ rest) buf = byteDecode s rest (buf ++ bs.map codeToStr) := by
  induction bs generalizing buf with
  | nil => simp
  | cons b bs ih =>
    simp only [List.map_cons, List.cons_append, byteDecode]
    rw [h.code_not_reserved (hb b (by simp)), if_neg (by simp), ih (fun c hc => hb c (by simp [hc]))]
    simp

/-- what the buffer contributes when it is flushed -/
theorem composeStr_codes (bs : List Nat) (h : ∀ b ∈ bs, 16 ≤ b ∧ b < 256) :
    (if (bs.map codeToStr).isEmpty then (.ok [] : Py Str) else composeStr (bs.map codeToStr)) = .ok (utf8Decode bs) := by
  cases bs with
  | nil => rfl
  | cons b bs =>
    rw [if_neg (by simp), composeStr, fromHex_codes _ h]

theorem utf8Char_ge {c : Nat} (h16 : 16 ≤ c) {x : List Nat} (h : utf8Char c = .ok x) : ∀ b ∈ x, 16 ≤ b := by
  simp only [utf8Char] at h
  repeat' split at h
  all_goals first | (cases h; done) | (cases h; simp; try omega)

theorem utf8Encode_ge {t : Str} (h16 : ∀ c ∈ t, 16 ≤ c) {bs : List Nat} (h : utf8Encode t = .ok bs) : ∀ b ∈ bs, 16 ≤ b := by
  induction t generalizing bs with
  | nil => simp [utf8Encode] at h; subst h; simp
  | cons c cs ih =>
    simp only [utf8Encode] at h
    cases hc : utf8Char c with
    | error e => simp [hc] at h
    | ok a =>
      cases hr : utf8Encode cs with
      | error e => simp [hc, hr] at h
      | ok b =>
        simp only [hc, hr] at h
        cases h
        intro d hd
        rcases List.mem_append.1 hd with hd | hd
        · exact utf8Char_ge (h16 c (by simp)) hc d hd
        · exact ih (fun x hx => h16 x (by simp [hx])) hr d hd

/-- a small code point is encoded as a small byte -/
theorem utf8Encode_small {t : Str} {bs : List Nat} (h : utf8Encode t = .ok bs) {c : Nat} (hc : c ∈ t) (h16 : c < 16) : c ∈ bs := by
  induction t generalizing bs with
  | nil => simp at hc
  | cons d ds ih =>
    simp only [utf8Encode] at h
    cases hd : utf8Char d with
    | error e => simp [hd] at h
    | ok a =>
      cases hr : utf8Encode ds with
      | error e => simp [hd, hr] at h
      | ok b =>
        simp only [hd, hr] at h
        cases h
        rcases List.mem_cons.1 hc with rfl | hc
        · rw [utf8Char, if_pos (by omega)] at hd
          cases hd; simp
        · exact List.mem_append_right _ (ih hr hc)

theorem codes_length_lt (bs : List Nat) (h : ∃ b ∈ bs, b < 16) : (bs.map codeToStr).flatten.length < 2 * bs.length := by
  have le : ∀ l : List Nat, (l.map codeToStr).flatten.length ≤ 2 * l.length := by
    intro l
    induction l with
    | nil => simp
    | cons b l ih =>
      have := codeToStr_length b
      simp only [List.map_cons, List.flatten_cons, List.length_append, List.length_cons]
      split at this <;> omega
  induction bs with
  | nil => simp at h
  | cons b bs ih =>
    have hl := codeToStr_length b
    simp only [List.map_cons, List.flatten_cons, List.length_append, List.length_cons]
    by_cases hb : b < 16
    · rw [if_pos hb] at hl
      have := le bs
      omega
    · obtain ⟨x, hx, hx16⟩ := h
      rcases List.mem_cons.1 hx with rfl | hx
      · exact absurd hx16 hb
      · have := ih ⟨x, hx, hx16⟩
        split at hl <;> omega

end Verif
