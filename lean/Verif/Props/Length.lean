import Verif.Props.Restore
import Verif.Props.Cost
import Verif.Props.Same
import Verif.Props.Bytes
/-!
# Property C127: how long encodings are
-/

namespace Verif
open Spec

/-- C127, words: one id for each word -/
theorem C127_word {tbl : List Ty} {s : Scheme} (hs : Scheme.make .word tbl = .ok s) {line : Str} {ws : List Str} (hw : Tokens line ws) :
    ∃ ids, s.encode line = .ok ids ∧ ids.length = ws.length := by
  obtain ⟨_, h2, h3, _, _⟩ := make_word_ok hs
  refine ⟨ws.map s.idOf, ?_, by simp⟩
  simp only [Scheme.encode, Scheme.encodeStr, h2, split_of_tokens hw]
  exact idsOf_eq (by rw [h2]; decide) h3 _

/-- C127, characters: one id for each character of the words and one between two words -/
theorem C127_char {tbl : List Ty} {s : Scheme} (hs : Scheme.make .char tbl = .ok s) {line : Str} {ws : List Str} (hw : Tokens line ws) :
    ∃ ids, s.encode line = .ok ids ∧ ids.length = (ws.map List.length).sum + (ws.length - 1) := by
  obtain ⟨_, h2, h3, _, _⟩ := make_char_ok hs
  refine ⟨(List.intercalate [0x2581] ws).map fun c => s.idOf [c], ?_, ?_⟩
  · simp only [Scheme.encode, Scheme.encodeStr, h2, split_of_tokens hw, join_eq_intercalate]
    rw [idsOf_eq (by rw [h2]; decide) h3, List.map_map]
    rfl
  · rw [List.length_map]
    clear hw
    induction ws with
    | nil => rfl
    | cons w ws ih => cases ws with
      | nil => simp
      | cons v vs =>
        rw [List.intercalate_cons_cons, List.length_append, List.length_append, ih]
        simp
        omega

/-- C127, classes: one id for each line -/
theorem C127_class {tbl : List Ty} {s : Scheme} (hs : Scheme.make .clasz tbl = .ok s) (line : Str) : ∃ id, s.encode line = .ok [id] := by
  obtain ⟨_, h2, h3, _⟩ := mkInvertible_ok hs
  refine ⟨s.idOf (strip line), ?_⟩
  simp only [Scheme.encode, Scheme.encodeStr, h2]
  exact idsOf_eq (by rw [h2]; decide) h3 _

/-- C127, bytes: one id for each byte of the line in UTF-8 -/
theorem C127_byte {tbl : List Ty} {s : Scheme} (hs : Scheme.make .byte tbl = .ok s) {line : String} {ids : List Int} (h : s.encode (lit line) = .ok ids) :
    ids.length = (line.toList.map Char.utf8Size).sum := by
  obtain ⟨_, h2, h3, _⟩ := mkInvertible_ok hs
  simp only [Scheme.encode, Scheme.encodeStr, h2, encode_lit] at h
  obtain ⟨_, e⟩ := idsOf_byte_ok h2 h3 h
  rw [e, List.length_map, List.length_map, utf8, List.length_map, List.length_flatMap]
  simp only [String.length_utf8EncodeChar]

/-- the pieces of a segmentation are not longer than the longest name -/
theorem greedy_cover {ns : List Str} {L : Nat} (h1 : 1 ≤ L) (hL : ∀ n ∈ ns, n.length ≤ L) {t : Str} {out : List (Option Str)} (h : Greedy ns t out) :
    t.length ≤ L * out.length := by
  induction h with
  | nil => simp
  | @tok w r out _ hm _ _ ih =>
    have := hL w hm
    rw [List.length_append, List.length_cons, Nat.mul_succ]
    omega
  | unk _ _ ih =>
    rw [List.length_cons, List.length_cons, Nat.mul_succ]
    omega

/-- C127, BPE: a line of words has at most one id for each character and each word, and with names of at most `L` characters at least one for every `L` of them; if the
marker U+2581 is only at the ends of names, as in learned vocabularies, there is at least one id for each word. -/
theorem C127_bpe {tbl : List Ty} {s : Scheme} (hs : Scheme.make .bpe tbl = .ok s) (hi : Indexed tbl) {line : Str} {ws : List Str} (hw : Tokens line ws) (hne : ws ≠ []) :
    ∃ ids, s.encode line = .ok ids ∧ ids.length ≤ (ws.map List.length).sum + ws.length ∧
      (∀ L, (∀ n ∈ names tbl, n.length ≤ L) → (ws.map List.length).sum + ws.length ≤ L * ids.length) ∧
      ((∀ n ∈ names tbl, 0x2581 ∉ n.dropLast) → ws.length ≤ ids.length) := by
  have hlen : ∀ vs : List Str, vs ≠ [] → (List.intercalate [SP] vs ++ [SP]).length = (vs.map List.length).sum + vs.length := by
    intro vs hne
    induction vs with
    | nil => exact absurd rfl hne
    | cons w vs ih => cases vs with
      | nil => simp
      | cons v vs =>
        have := ih (by simp)
        rw [List.intercalate_cons_cons]
        simp only [List.length_append, List.map_cons, List.sum_cons, List.length_cons, List.length_nil] at this ⊢
        omega
  obtain ⟨out, hg, _, he⟩ := bpe_encode_spec hs hi line
  have ht : bpeText line = List.intercalate [SP] ws ++ [SP] := by
    rw [bpeText, split_strip, split_of_tokens hw, join_eq_intercalate]
  rw [ht] at hg
  refine ⟨_, he, ?_, fun L hL => ?_, fun hm => ?_⟩
  · rw [List.length_map, ← hlen ws hne]
    exact (greedy_len hg).1
  · rw [List.length_map, ← hlen ws hne]
    refine greedy_cover ?_ hL hg
    obtain ⟨t, ht, hn⟩ := validateReserved_ok (make_bpe_ok hs).2.2.2.1 5 (by decide)
    have := hL t.name (List.mem_map.2 ⟨t, List.mem_of_getElem? ht, rfl⟩)
    rw [hn] at this
    exact this
  · obtain ⟨idss, h1, h2⟩ := C81_table hs hi hm hw hne
    rw [he, Except.ok.injEq] at h2
    rw [h2, List.length_flatten]
    have hpos : ∀ w ids, s.encode w = .ok ids → 1 ≤ ids.length := by
      intro w ids hw
      obtain ⟨o, g, _, e⟩ := bpe_encode_spec hs hi w
      rw [e] at hw
      cases hw
      rw [List.length_map]
      cases g' : o with
      | cons a b => simp
      | nil =>
        rw [g'] at g
        generalize hb : bpeText w = t at g
        cases g
        simp [bpeText] at hb
    clear h2 he hg hne hw ht hlen hm
    induction h1 with
    | nil => simp
    | @cons w ids ws idss h _ ih =>
      have := hpos w ids h
      simp only [List.length_cons, List.map_cons, List.sum_cons]
      omega

/-- C127, BPE as learned from any text without the marker, with any options: between one id for each word and one for each character and word -/
theorem C127_learned {ord : Nat → List Nat → List Nat} (hord : ∀ i l, (ord i l).Perm l) {A : Acc} {data : List Str} {toks : List (List Str)}
    (ht : List.Forall₂ Tokens data toks) (hsp : ∀ ws ∈ toks, ∀ w ∈ ws, 0x2581 ∉ w) {vs mf minEv : Int} {cov : Option A.F}
    (hv : ∀ c, cov = some c → A.valid c = true) {vocab : List Ty} (h : bpeLearn ord A data vs mf cov minEv = .ok vocab) :
    ∃ s, Scheme.make .bpe vocab = .ok s ∧ ∀ line ws, Tokens line ws → ws ≠ [] →
      ∃ ids, s.encode line = .ok ids ∧ ws.length ≤ ids.length ∧ ids.length ≤ (ws.map List.length).sum + ws.length := by
  obtain ⟨s, hs, _⟩ := C19_bpe_accepted hord hv h
  refine ⟨s, hs, fun line ws hw hne => ?_⟩
  obtain ⟨ids, h1, h2, _, h4⟩ := C127_bpe hs (C22_text hord hv h).1 hw hne
  exact ⟨ids, h1, h4 (learned_markers hord ht hsp hv h), h2⟩

/-- C127: a line without words is one id with every BPE scheme, though none with word and character schemes -/
theorem C127_no_words {tbl : List Ty} {s : Scheme} (hs : Scheme.make .bpe tbl = .ok s) (hi : Indexed tbl) {line : Str} (hw : Tokens line []) :
    ∃ id, s.encode line = .ok [id] := by
  obtain ⟨out, hg, _, he⟩ := bpe_encode_spec hs hi line
  have ht : bpeText line = [SP] := by
    rw [bpeText, split_strip, split_of_tokens hw]
    rfl
  rw [ht] at hg
  have h1 := (greedy_len hg).1
  match out, hg, h1, he with
  | [o], _, _, he => exact ⟨_, he⟩
  | [], hg, _, _ =>
    generalize hb : ([SP] : Str) = t at hg
    cases hg
    cases hb

-- "abab ab" is two ids at best, one for each character and word at worst
example : (match bpeLearn ordId accExact [lit "abab abab ab b"] 0 1 none 2 with
    | .error _ => false
    | .ok v => match Scheme.make .bpe v with
      | .error _ => false
      | .ok s => decide ((s.encode (lit "abab ab")).toOption.map List.length = some 2) && decide ((s.encode (lit "ba xyz")).toOption.map List.length = some 7) &&
          decide ((s.encode (lit " ")).toOption.map List.length = some 1)) = true := by decide +kernel

end Verif
