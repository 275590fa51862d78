import Verif.Props.Codec
/-!
# Decoding arbitrary id sequences (C71), class labels (C10)
-/

namespace Verif
open Spec

/-- the text a scheme other than byte makes of the names of the ids -/
def Spec.Rendered (k : Kind) (ns : List Str) : Option Str :=
  match k with
  | .word => some (List.intercalate [32] ns)
  | .char => some (ns.flatten.map fun c => if c = SP then 32 else c)
  | .bpe => some (strip (ns.flatten.map fun c => if c = SP then 32 else c))
  | .clasz => some (List.intercalate [44] ns)
  | .byte => none

theorem make_table {k : Kind} {tbl : List Ty} {s : Scheme} (h : Scheme.make k tbl = .ok s) (hk : k ≠ .byte) : s.table = tbl ∧ s.kind = k := by
  cases k with
  | word => obtain ⟨a, b, _⟩ := make_word_ok h; exact ⟨a, b⟩
  | char => obtain ⟨a, b, _⟩ := make_char_ok h; exact ⟨a, b⟩
  | bpe => obtain ⟨a, b, _⟩ := make_bpe_ok h; exact ⟨a, b⟩
  | clasz => obtain ⟨a, b, _⟩ := mkInvertible_ok h; exact ⟨a, b⟩
  | byte => exact absurd rfl hk

theorem namesOf_forall₂ {tbl : List Ty} {ids : List Nat} {ns : List Str}
    (h : List.Forall₂ (fun i n => (names tbl)[i]? = some n) ids ns) : namesOf tbl (ids.map fun i : Nat => (i : Int)) = .ok ns := by
  induction h with
  | nil => rfl
  | cons h1 _ ih =>
    simp only [names, List.getElem?_map, Option.map_eq_some_iff] at h1
    obtain ⟨t, ht, e⟩ := h1
    simp [namesOf, pyIndex_some ht, ih, e]

/-- C71: any sequence of ids of the table decodes to the names of the ids in order, rendered as the scheme does. -/
theorem C71_decode_any {k : Kind} {tbl : List Ty} {s : Scheme} (hs : Scheme.make k tbl = .ok s) {ids : List Nat} {ns : List Str}
    (h : List.Forall₂ (fun i n => (names tbl)[i]? = some n) ids ns) {text : Str} (ht : Rendered k ns = some text) :
    s.decode (ids.map fun i : Nat => (i : Int)) = .ok text := by
  have hk : k ≠ .byte := by rintro rfl; cases ht
  obtain ⟨h1, h2⟩ := make_table hs hk
  simp only [Scheme.decode, h1, namesOf_forall₂ h, Scheme.decodeStr, h2]
  cases k <;> simp only [Rendered, Option.some.injEq, reduceCtorEq] at ht <;> subst ht <;> simp only [join_eq_intercalate, replaceCh]

/-- C71: an id outside of `-len(table) .. len(table) - 1` anywhere in the sequence raises IndexError, for every scheme. -/
theorem C71_out_of_range_raises (s : Scheme) {ids : List Int} {i : Int} (hi : i ∈ ids)
    (h : i < -(s.table.length : Int) ∨ (s.table.length : Int) ≤ i) : s.decode ids = .error .index := by
  have hidx : ∀ j : Int, pyIndex s.table j = .error .index ∨ ∃ t, pyIndex s.table j = .ok t := by
    intro j
    simp only [pyIndex]
    by_cases h1 : (if j < 0 then j + (s.table.length : Int) else j) < 0
    · exact .inl (if_pos h1)
    · rw [if_neg h1]
      cases s.table[(if j < 0 then j + (s.table.length : Int) else j).toNat]? with
      | none => exact .inl rfl
      | some t => exact .inr ⟨t, rfl⟩
  have hbad : pyIndex s.table i = .error .index := by
    simp only [pyIndex]
    rcases h with h | h
    · have h1 : i < 0 := by omega
      have h2 : i + (s.table.length : Int) < 0 := by omega
      simp [h1, h2]
    · have h1 : ¬ i < 0 := by omega
      have h2 : s.table[i.toNat]? = none := by rw [List.getElem?_eq_none_iff]; omega
      simp [h1, h2]
  have hnames : namesOf s.table ids = .error .index := by
    induction ids with
    | nil => simp at hi
    | cons j js ih =>
      simp only [namesOf]
      rcases List.mem_cons.1 hi with rfl | hm
      · rw [hbad]
      · rw [ih hm]
        rcases hidx j with e | ⟨t, e⟩ <;> rw [e]
  simp [Scheme.decode, hnames]

/-- C71: negative ids count from the end of the table, silently. -/
theorem C71_negative_wraps {k : Kind} {tbl : List Ty} {s : Scheme} (hs : Scheme.make k tbl = .ok s) (hk : k ≠ .byte) {n : Nat}
    (h1 : 0 < n) (h2 : n ≤ tbl.length) : s.decode [-(n : Int)] = s.decode [((tbl.length - n : Nat) : Int)] := by
  obtain ⟨e1, e2⟩ := make_table hs hk
  have : pyIndex s.table (-(n : Int)) = pyIndex s.table ((tbl.length - n : Nat) : Int) := by
    simp only [pyIndex, e1]
    have a : -(n : Int) < 0 := by omega
    have b : ¬ ((tbl.length - n : Nat) : Int) < 0 := by omega
    have c : -(n : Int) + (tbl.length : Int) = ((tbl.length - n : Nat) : Int) := by omega
    simp only [a, b, if_true, if_false, c]
  simp only [Scheme.decode, namesOf, this]

example : (withScheme .bpe (exTable Level.subword ["a", "b", "ab"]) fun s => s.decode [8, 5, 5, 1, 7]) = .ok (lit "ab  <unk>b") := by decide
example : (withScheme .word (exTable Level.word ["a", "b"]) fun s => s.decode [6, 9]) = .error .index := by decide
example : (withScheme .word (exTable Level.word ["a", "b"]) fun s => s.decode [7, -1, -2, 2]) = .ok (lit "b b a <s>") := by decide

/-- C10: labels in the table are encoded to their own ids, and several ids are decoded to the labels joined by commas. -/
theorem C10_labels_joined_partial {tbl : List Ty} {s : Scheme} (hs : Scheme.make .clasz tbl = .ok s) {labels : List Str}
    (hl : ∀ l ∈ labels, strip l ∈ names tbl) :
    ∃ ids : List Int, List.Forall₂ (fun l i => s.encode l = .ok [i]) labels ids ∧
      s.decode ids = .ok (List.intercalate [44] (labels.map strip)) := by
  obtain ⟨h1, h2, h3, h4⟩ := mkInvertible_ok (k := .clasz) hs
  have key : ∃ ids : List Nat, List.Forall₂ (fun i n => (names tbl)[i]? = some n) ids (labels.map strip) ∧
      List.Forall₂ (fun l (i : Nat) => s.encode l = .ok [(i : Int)]) labels ids := by
    induction labels with
    | nil => exact ⟨[], .nil, .nil⟩
    | cons l ls ih =>
      obtain ⟨ids, a, b⟩ := ih (fun m hm => hl m (by simp [hm]))
      obtain ⟨i, hi⟩ := List.mem_iff_getElem?.1 (hl l (by simp))
      have hidx := idxOf?_eq_of_nodup h4 hi
      refine ⟨i :: ids, .cons hi a, .cons ?_ b⟩
      simp only [Scheme.encode, Scheme.encodeStr, h2]
      rw [idsOf_eq (by rw [h2]; decide) h3]
      have : s.idxToStr.idxOf? (strip l) = some i := by simp only [Scheme.idxToStr, h1]; exact hidx
      simp [Scheme.idOf, this]
  obtain ⟨ids, a, b⟩ := key
  refine ⟨ids.map fun i : Nat => (i : Int), ?_, C71_decode_any hs a rfl⟩
  rw [List.forall₂_map_right_iff]
  exact b

example : (withScheme .clasz [⟨lit "cat", 0, 0, 1, []⟩, ⟨lit "dog", 0, 1, 1, []⟩] fun s => s.decode [1, 0, 1]) = .ok (lit "dog,cat,dog") := by
  decide

end Verif
