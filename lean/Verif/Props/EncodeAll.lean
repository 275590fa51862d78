import Verif.Model.EncodeAll
import Verif.Props.Mapred
import Verif.Props.Codec
import Verif.Lemmas.VocabFile
/-!
# Encoding all lines in one process or in many (C122)
-/

namespace Verif
open Spec

/-- the id of piece `p` in the table of a scheme of kind `k`: the place of an entry of that name, or the id for unknown pieces -/
def Spec.PieceId (k : Kind) (tbl : List Ty) (p : Str) (i : Int) : Prop :=
  (∃ n : Nat, i = n ∧ (names tbl)[n]? = some p ∧ ∀ m < n, (names tbl)[m]? ≠ some p) ∨ (p ∉ names tbl ∧ i = if k = .clasz then -1 else 1)

theorem encodeStr_strip {s : Scheme} (hk : s.kind ≠ .byte) (line : Str) : s.encodeStr (strip line) = s.encodeStr line := by
  unfold Scheme.encodeStr
  cases h : s.kind with
  | byte => exact absurd h hk
  | word => simp only [split_strip]
  | char => simp only [split_strip]
  | bpe => simp only [bpeIds, bpeText, split_strip]
  | clasz => simp only [strip_strip]

theorem encode_strip {s : Scheme} (hk : s.kind ≠ .byte) (line : Str) : s.encode (strip line) = s.encode line := by
  simp only [Scheme.encode, encodeStr_strip hk]

/-- the facts about a scheme that is not of bytes used here -/
theorem made_dict {k : Kind} (hk : k ≠ .byte) {tbl : List Ty} {s : Scheme} (hs : Scheme.make k tbl = .ok s) :
    s.table = tbl ∧ s.kind = k ∧ DictOK s := by
  cases k with
  | byte => exact absurd rfl hk
  | word => obtain ⟨h1, h2, h3, _⟩ := make_word_ok hs; exact ⟨h1, h2, h3⟩
  | char => obtain ⟨h1, h2, h3, _⟩ := make_char_ok hs; exact ⟨h1, h2, h3⟩
  | bpe => obtain ⟨h1, h2, h3, _⟩ := make_bpe_ok hs; exact ⟨h1, h2, h3⟩
  | clasz => obtain ⟨h1, h2, h3, _⟩ := mkInvertible_ok hs; exact ⟨h1, h2, h3⟩

theorem pieceId_idOf {k : Kind} {tbl : List Ty} {s : Scheme} (ht : s.table = tbl) (hk : s.kind = k) (p : Str) : PieceId k tbl p (s.idOf p) := by
  subst ht hk
  unfold Scheme.idOf
  cases h : s.idxToStr.idxOf? p with
  | some i =>
    left
    refine ⟨i, rfl, idxOf?_some_get h, fun m hm he => ?_⟩
    obtain ⟨hi, _, hlt⟩ := List.idxOf?_eq_some_iff.1 h
    have hm' : m < s.idxToStr.length := by omega
    have he' : s.idxToStr[m]? = some p := he
    rw [List.getElem?_eq_getElem hm'] at he'
    exact absurd (by simpa using Option.some.inj he') (hlt m hm)
  | none =>
    right
    exact ⟨List.idxOf?_eq_none_iff.1 h, rfl⟩

/-- C122 (word, char, bpe): for every input, `encode_all` yields one sequence of ids for each line, the one that `encode` gives for the line itself,
with or without its line feed; `encode_parallel` yields the same, in whatever order the chunks are done. -/
theorem C122_parallel {k : Kind} (hk : k = .word ∨ k = .char ∨ k = .bpe) {tbl : List Ty} {s : Scheme} (hs : Scheme.make k tbl = .ok s)
    (hi : Indexed tbl) (lines : List Str) {nCpus : Int} (hn : 2 ≤ nCpus)
    {done : List (Nat × Py (List (List Int))) → List (Nat × Py (List (List Int)))} (hd : ∀ r, (done r).Perm r) :
    ∃ out, encodeAllIds s lines = ⟨out, none⟩ ∧ parallelMap s.encode lines nCpus 1000 done = ⟨out, none⟩ ∧
      List.Forall₂ (fun line ids => s.encode line = .ok ids) lines out := by
  obtain ⟨out, h1, h2⟩ := C56_encode hk hs hi lines hn hd
  have hkb : k ≠ .byte := by rcases hk with rfl | rfl | rfl <;> decide
  obtain ⟨_, h3, _⟩ := made_dict hkb hs
  refine ⟨out, genMap_ok (h2.imp fun line ids h => ?_), h1, h2⟩
  rw [encode_strip (by rw [h3]; exact hkb), h]

/-- C122 (class): each line gives one id, also that of the line itself. -/
theorem C122_class {tbl : List Ty} {s : Scheme} (hs : Scheme.make .clasz tbl = .ok s) (lines : List Str) {nCpus : Int} (hn : 2 ≤ nCpus)
    {done : List (Nat × Py (List (List Int))) → List (Nat × Py (List (List Int)))} (hd : ∀ r, (done r).Perm r) :
    ∃ out, encodeAllIds s lines = ⟨out.map fun i => [i], none⟩ ∧ parallelMap s.encode lines nCpus 1000 done = ⟨out.map fun i => [i], none⟩ ∧
      List.Forall₂ (fun line i => ∃ t, Trimmed line t ∧ PieceId .clasz tbl t i) lines out := by
  obtain ⟨h1, h2, h3⟩ := made_dict (by decide) hs
  have he : ∀ line, s.encode line = .ok [s.idOf (strip line)] := fun line => by
    simp [Scheme.encode, Scheme.encodeStr, h2, idsOf_eq (by rw [h2]; decide) h3]
  refine ⟨lines.map fun l => s.idOf (strip l), ?_, ?_, ?_⟩
  · rw [List.map_map]
    refine genMap_ok ?_
    rw [List.forall₂_map_right_iff]
    exact List.forall₂_same.2 fun a _ => by rw [he, strip_strip]; rfl
  · rw [List.map_map]
    exact C56_ordered (fun a _ => he a) hn (by omega) hd
  · rw [List.forall₂_map_right_iff]
    exact List.forall₂_same.2 fun a _ => ⟨strip a, trimmed_iff.2 rfl, pieceId_idOf h1 h2 _⟩

/-- C122: with `index=False` the generator yields the pieces, and the ids of `index=True` are the ids of these pieces, one by one; so it is for every
scheme but that of bytes. -/
theorem C122_pieces {k : Kind} (hk : k ≠ .byte) {tbl : List Ty} {s : Scheme} (hs : Scheme.make k tbl = .ok s) (hi : Indexed tbl) (lines : List Str) :
    ∃ pieces ids, encodeAllStr s lines = ⟨pieces, none⟩ ∧ encodeAllIds s lines = ⟨ids, none⟩ ∧
      List.Forall₂ (fun line ps => s.encodeStr line = .ok ps) lines pieces ∧ List.Forall₂ (List.Forall₂ (PieceId k tbl)) pieces ids := by
  obtain ⟨h1, h2, h3⟩ := made_dict hk hs
  have hkb : s.kind ≠ .byte := by rw [h2]; exact hk
  have he : ∀ line, ∃ ps, s.encodeStr line = .ok ps := by
    intro line
    cases k with
    | byte => exact absurd rfl hk
    | word => exact ⟨_, by simp only [Scheme.encodeStr, h2]; rfl⟩
    | char => exact ⟨_, by simp only [Scheme.encodeStr, h2]; rfl⟩
    | clasz => exact ⟨_, by simp only [Scheme.encodeStr, h2]; rfl⟩
    | bpe => obtain ⟨_, ps, _, h, _⟩ := C04_ids_pieces_agree hs hi line; exact ⟨ps, h⟩
  choose f hf using he
  refine ⟨lines.map f, lines.map fun l => (f l).map s.idOf, genMap_ok ?_, genMap_ok ?_, ?_, ?_⟩
  · rw [List.forall₂_map_right_iff]
    exact List.forall₂_same.2 fun a _ => by rw [encodeStr_strip hkb, hf]
  · rw [List.forall₂_map_right_iff]
    exact List.forall₂_same.2 fun a _ => by rw [encode_strip hkb, Scheme.encode, hf]; exact idsOf_eq hkb h3 _
  · rw [List.forall₂_map_right_iff]
    exact List.forall₂_same.2 fun a _ => hf a
  · rw [List.forall₂_map_left_iff, List.forall₂_map_right_iff]
    refine List.forall₂_same.2 fun a _ => ?_
    rw [List.forall₂_map_right_iff]
    exact List.forall₂_same.2 fun p _ => pieceId_idOf h1 h2 p

/-- C122 (all schemes): the sequences are those of the lines without the white space around them, and if one of these cannot be encoded, the sequences
of all lines before it have been yielded. -/
theorem C122_until_failure (s : Scheme) {lines texts : List Str} (ht : List.Forall₂ Trimmed lines texts) :
    (∃ out, encodeAllIds s lines = ⟨out, none⟩ ∧ List.Forall₂ (fun t ids => s.encode t = .ok ids) texts out) ∨
      ∃ pre bad post e out, texts = pre ++ bad :: post ∧ s.encode bad = .error e ∧ encodeAllIds s lines = ⟨out, some e⟩ ∧
        List.Forall₂ (fun t ids => s.encode t = .ok ids) pre out := by
  induction ht with
  | nil => exact .inl ⟨[], rfl, .nil⟩
  | @cons l t ls ts h _ ih =>
    have hl : strip l = t := trimmed_iff.1 h
    cases hc : s.encode t with
    | error e => exact .inr ⟨[], t, ts, e, [], rfl, hc, by simp only [encodeAllIds, genMap, hl, hc], .nil⟩
    | ok ids =>
      rcases ih with ⟨out, i1, i2⟩ | ⟨pre, bad, post, e, out, i1, i2, i3, i4⟩
      · exact .inl ⟨ids :: out, by simp only [encodeAllIds, genMap, hl, hc] at i1 ⊢; rw [i1], .cons hc i2⟩
      · refine .inr ⟨t :: pre, bad, post, e, ids :: out, by rw [i1]; rfl, i2, ?_, .cons hc i4⟩
        simp only [encodeAllIds, genMap, hl, hc] at i3 ⊢
        rw [i3]

/-- C122 is false for bytes: `encode_all` loses the white space around a line, which `encode_parallel` encodes. -/
theorem C122_byte_refuted : ∃ (s : Scheme) (lines : List Str), Scheme.make .byte [] = .ok s ∧
    ∀ (nCpus : Int) (done : List (Nat × Py (List (List Int))) → List (Nat × Py (List (List Int)))), 2 ≤ nCpus → (∀ r, (done r).Perm r) →
      parallelMap s.encode lines nCpus 1000 done = ⟨[[32, 97, 10]], none⟩ ∧ encodeAllIds s lines = ⟨[[97]], none⟩ := by
  cases hs : Scheme.make .byte [] with
  | error e =>
    have h1 : (withScheme .byte [] fun _ => .ok ()) = .ok () := by decide +kernel
    rw [withScheme, hs] at h1
    cases h1
  | ok s =>
    have h1 : (withScheme .byte [] fun s => s.encode (lit " a\n")) = .ok [32, 97, 10] := by decide +kernel
    have h2 : (withScheme .byte [] fun s => .ok (encodeAllIds s [lit " a\n"])) = .ok ⟨[[32 + 65]], none⟩ := by decide +kernel
    simp only [withScheme, hs] at h1 h2
    exact ⟨s, [lit " a\n"], rfl, fun n d hn hd => ⟨C56_sequential (.cons h1 .nil) hn (by omega) hd, Except.ok.inj h2⟩⟩

/-- lines with white space around them, a piece outside of the vocabulary, two labels; a line with a lone surrogate ends the generator -/
example : (withScheme .word (exTable Level.word ["a", "b"]) fun s => .ok (encodeAllIds s [lit " b a\n", lit "c\n"])) = .ok ⟨[[7, 6], [1]], none⟩ ∧
    (withScheme .word (exTable Level.word ["a", "b"]) fun s => .ok (encodeAllStr s [lit " b a\n", lit "c\n"])) =
      .ok ⟨[[lit "b", lit "a"], [lit "c"]], none⟩ ∧
    (withScheme .byte [] fun s => .ok (encodeAllIds s [lit "a", [0xD800], lit "b"])) = .ok ⟨[[97]], some .unicode⟩ := by decide +kernel

end Verif
