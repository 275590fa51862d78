import Verif.Props.Bpepp
import Verif.Props.Cli
import Verif.Props.File
/-!
# Properties C85-C87: codec, vocabulary files and commands of `experimental/bpepp.py`
-/

namespace Verif
open Spec

/-! ## C85 -/

theorem lastNamed_lastAt {tbl : List Ty} (hi : Indexed tbl) {w : Str} {t : Ty} (h : lastNamed tbl w = some t) :
    LastAt (names tbl) w t.idx := by
  obtain ⟨hm, hn⟩ := lastNamed_some h
  refine ⟨by simp [names, hi.get hm, hn], ?_⟩
  intro k hk hw
  simp only [names, List.getElem?_map, Option.map_eq_some_iff] at hw
  obtain ⟨u, hu, hun⟩ := hw
  obtain ⟨hlt, hue⟩ := List.getElem?_eq_some_iff.1 hu
  have e : tbl = tbl.take k ++ tbl.drop k := (List.take_append_drop k tbl).symm
  have hd : tbl.drop k = u :: tbl.drop (k + 1) := by rw [← hue]; exact List.drop_eq_getElem_cons hlt
  unfold lastNamed at h
  rw [e, hd, List.filter_append, List.filter_cons, if_pos (by simpa using hun), List.getLast?_append, List.getLast?_cons] at h
  simp only [Option.some_or, Option.some.injEq] at h
  have : t ∈ tbl.drop k := by
    rw [hd, ← h]
    cases hg : (List.filter (fun t => decide (t.name = w)) (tbl.drop (k + 1))).getLast? with
    | none => simp
    | some x => simp only [Option.getD_some]; exact List.mem_cons_of_mem _ (List.mem_filter.1 (List.mem_of_getLast? hg)).1
  obtain ⟨i, hi'⟩ := List.getElem?_of_mem this
  rw [List.getElem?_drop] at hi'
  have := hi _ _ hi'
  omega

theorem ppMake_ok {vocab : List Ty} {c : PpCodec} (h : PpCodec.make vocab = .ok c) :
    vocab ≠ [] ∧ c.vocab = vocab ∧ c.root = buildTrie vocab ∧ (buildTrie vocab).data = none := by
  unfold PpCodec.make at h
  split at h
  · cases h
  · rename_i hne
    simp only at h
    split at h
    · cases h
    · rename_i hd
      cases h
      exact ⟨hne, rfl, rfl, by simpa using hd⟩

/-- C85: the constructor accepts exactly the non-empty tables without an empty name. -/
theorem C85_accepts (vocab : List Ty) : (∃ c, PpCodec.make vocab = .ok c) ↔ vocab ≠ [] ∧ ∀ t ∈ vocab, t.name ≠ [] := by
  have hd : (buildTrie vocab).data = lastNamed vocab [] := lookup_buildTrie vocab []
  unfold PpCodec.make
  constructor
  · rintro ⟨c, h⟩
    split at h
    · cases h
    · rename_i hne
      simp only at h
      split at h
      · cases h
      · rename_i hs
        refine ⟨hne, ?_⟩
        rw [hd] at hs
        exact lastNamed_none (by simpa using hs)
  · rintro ⟨hne, hn⟩
    rw [if_neg hne]
    have : lastNamed vocab [] = none := by
      cases hl : lastNamed vocab [] with
      | none => rfl
      | some t => obtain ⟨h1, h2⟩ := lastNamed_some hl; exact absurd h2 (hn t h1)
    simp [hd, this]

theorem ppEncode_spec {vocab : List Ty} {c : PpCodec} (h : PpCodec.make vocab = .ok c) (hi : Indexed vocab) (line : Str) :
    ∃ out ids, Greedy (names vocab) (bpeText line) out ∧ c.encode line = .ok ids ∧
      List.Forall₂ (fun o (i : Int) => match o with
        | some w => ∃ j, LastAt (names vocab) w j ∧ i = (j : Int)
        | none => i = 1) out ids := by
  obtain ⟨h1, h2, h3, h4⟩ := ppMake_ok h
  obtain ⟨out, ids, hg, hl, hf⟩ := encLoop_greedy vocab (UNK : Int) h4 (bpeText line).length (bpeText line) []
    (encFuel (bpeText line).length) (Nat.le_refl _) (by
      rw [encFuel]; exact Nat.mul_le_mul_left _ (by omega))
  refine ⟨out, ids, hg, ?_, hf.imp ?_⟩
  · simp only [PpCodec.encode, h3, hl, List.nil_append]
  · intro o i ho
    cases o with
    | none => exact ho
    | some w =>
      obtain ⟨t, ht, e⟩ := ho
      exact ⟨t.idx, lastNamed_lastAt hi ht, e⟩

/-- C85: `encode` never fails; the ids are those of the greedy longest-match segmentation of the tokens joined and ended by
U+2581: the last type of that name, or 1 for a character that starts no name. -/
theorem C85_greedy {vocab : List Ty} {c : PpCodec} (h : PpCodec.make vocab = .ok c) (hi : Indexed vocab) {line : Str} {ws : List Str}
    (hw : Tokens line ws) : ∃ out ids, Greedy (names vocab) (List.intercalate [SP] ws ++ [SP]) out ∧ c.encode line = .ok ids ∧
      List.Forall₂ (fun o (i : Int) => match o with
        | some w => ∃ j, LastAt (names vocab) w j ∧ i = (j : Int)
        | none => i = 1) out ids := by
  obtain ⟨out, ids, h1, h2⟩ := ppEncode_spec h hi line
  refine ⟨out, ids, ?_, h2⟩
  rw [bpeText, split_strip, split_of_tokens hw, join_eq_intercalate] at h1
  exact h1

/-- names found for the ids of a segmentation -/
theorem namesOf_segmentation {vocab : List Ty} {u : Str} (hu : (names vocab)[1]? = some u) {out : List (Option Str)} {ids : List Int}
    (h : List.Forall₂ (fun o (i : Int) => match o with
        | some w => ∃ j, LastAt (names vocab) w j ∧ i = (j : Int)
        | none => i = 1) out ids) : namesOf vocab ids = .ok (out.map fun o => o.getD u) := by
  induction h with
  | nil => rfl
  | @cons o i out ids ho _ ih =>
    have : ∃ t, pyIndex vocab i = .ok t ∧ t.name = o.getD u := by
      cases o with
      | none =>
        subst ho
        simp only [names, List.getElem?_map, Option.map_eq_some_iff] at hu
        obtain ⟨t, ht, hn⟩ := hu
        exact ⟨t, pyIndex_some (i := 1) ht, hn⟩
      | some w =>
        obtain ⟨j, hj, rfl⟩ := ho
        have := hj.1
        simp only [names, List.getElem?_map, Option.map_eq_some_iff] at this
        obtain ⟨t, ht, hn⟩ := this
        exact ⟨t, pyIndex_some ht, hn⟩
    obtain ⟨t, ht, hn⟩ := this
    simp [namesOf, ht, ih, hn]

/-- C85: with `pieces=True` the result is the segmentation itself, unknown characters shown as the name of type 1. -/
theorem C85_pieces {vocab : List Ty} {c : PpCodec} (h : PpCodec.make vocab = .ok c) (hi : Indexed vocab) {u : Str}
    (hu : (names vocab)[1]? = some u) {line : Str} {ws : List Str} (hw : Tokens line ws) :
    ∃ out, Greedy (names vocab) (List.intercalate [SP] ws ++ [SP]) out ∧ c.pieces line = .ok (out.map fun o => o.getD u) := by
  obtain ⟨out, ids, h1, h2, h3⟩ := C85_greedy h hi hw
  refine ⟨out, h1, ?_⟩
  simp only [PpCodec.pieces, h2, (ppMake_ok h).2.1]
  exact namesOf_segmentation hu h3

/-- C85: the ids are valid indices of the table. -/
theorem C85_ids_in_range {vocab : List Ty} {c : PpCodec} (h : PpCodec.make vocab = .ok c) (hi : Indexed vocab) (h2 : 2 ≤ vocab.length)
    (line : Str) : ∃ ids, c.encode line = .ok ids ∧ ids ≠ [] ∧ ∀ i ∈ ids, 0 ≤ i ∧ i < vocab.length := by
  obtain ⟨out, ids, h1, h2, h3⟩ := ppEncode_spec h hi line
  refine ⟨ids, h2, ?_, ?_⟩
  · rintro rfl
    cases h3
    generalize hb : bpeText line = b at h1
    cases h1
    simp [bpeText] at hb
  · intro i him
    obtain ⟨o, _, ho⟩ := mem_of_forall₂_right h3 i him
    cases o with
    | none => subst ho; omega
    | some w =>
      obtain ⟨j, hj, rfl⟩ := ho
      have := (List.getElem?_eq_some_iff.1 hj.1).1
      simp only [names, List.length_map] at this
      omega

/-- C85: if all characters of a line and U+2581 are names, decoding the ids gives the line with its white space normalised. -/
theorem C85_lossless {vocab : List Ty} {c : PpCodec} (h : PpCodec.make vocab = .ok c) (hi : Indexed vocab) (hsp : [SP] ∈ names vocab)
    {line : Str} {ws : List Str} (hw : Tokens line ws) (hc : ∀ w ∈ ws, ∀ ch ∈ w, [ch] ∈ names vocab ∧ ch ≠ SP) :
    ∃ ids, c.encode line = .ok ids ∧ c.decodeAsStr ids = .ok (List.intercalate [32] ws) := by
  obtain ⟨out, ids, h1, h2, h3⟩ := ppEncode_spec h hi line
  refine ⟨ids, h2, ?_⟩
  have hws : ∀ w ∈ ws, IsToken w := fun w hww => split_isToken (by rw [split_of_tokens hw]; exact hww)
  have htext : bpeText line = join [SP] ws ++ [SP] := by rw [bpeText, split_strip, split_of_tokens hw]
  have hcov : ∀ ch ∈ bpeText line, [ch] ∈ names vocab := by
    intro ch hcm
    rw [htext] at hcm
    rcases List.mem_append.1 hcm with hcm | hcm
    · rcases mem_join hcm with hcm | ⟨w, hwm, hcw⟩
      · simp at hcm; subst hcm; exact hsp
      · exact (hc w hwm ch hcw).1
    · simp at hcm; subst hcm; exact hsp
  obtain ⟨c1, c2⟩ := greedy_covered h1 hcov
  have hn : namesOf vocab ids = .ok (out.map fun o => o.getD unkName) := by
    clear h2 h1 c2
    induction h3 with
    | nil => rfl
    | @cons o i out ids ho _ ih =>
      cases o with
      | none => exact absurd rfl (c1 none (by simp))
      | some w =>
        obtain ⟨j, hj, rfl⟩ := ho
        have := hj.1
        simp only [names, List.getElem?_map, Option.map_eq_some_iff] at this
        obtain ⟨t, ht, hn⟩ := this
        simp [namesOf, pyIndex_some ht, ih (fun o ho => c1 o (by simp [ho])), hn]
  simp only [PpCodec.decodeAsStr, PpCodec.decode, (ppMake_ok h).2.1, hn, c2, htext]
  have : replaceCh SP 32 (join [SP] ws ++ [SP]) = join [32] ws ++ [32] := by
    have := replaceCh_join ws (fun w hwm c hcw => (hc w hwm c hcw).2)
    simp only [replaceCh] at this ⊢
    rw [List.map_append, this]
    rfl
  rw [this, strip_intercalate hws, join_eq_intercalate]

/-- C85: on tables accepted by nlcodec's BPE scheme the pieces are those of nlcodec; the ids are too if the names are distinct. -/
theorem C85_nlcodec {vocab : List Ty} {s : Scheme} (h : Scheme.make .bpe vocab = .ok s) (hi : Indexed vocab) :
    ∃ c, PpCodec.make vocab = .ok c ∧ ∀ line, c.pieces line = s.encodeStr line ∧
      ((names vocab).Nodup → c.encode line = s.encode line) := by
  obtain ⟨h1, h2, h3, h4, h5, h6⟩ := make_bpe_ok h
  obtain ⟨tu, htu, hun⟩ := validateReserved_ok h4 1 (by omega)
  have hne : vocab ≠ [] := by rintro rfl; simp at htu
  have hm : PpCodec.make vocab = .ok { vocab := vocab, root := buildTrie vocab } := by
    unfold PpCodec.make
    rw [if_neg hne]
    simp [h6]
  refine ⟨_, hm, fun line => ?_⟩
  obtain ⟨out, ids, g1, g2, g3⟩ := ppEncode_spec hm hi line
  obtain ⟨out', e1, e2, e3⟩ := bpe_encode_spec h hi line
  have := g1.unique e1
  subst this
  have hu : (names vocab)[1]? = some unkName := by simp [names, htu, hun]; rfl
  constructor
  · simp only [PpCodec.pieces, g2, namesOf_segmentation hu g3]
    exact e2.symm
  · intro hnd
    rw [g2, e3]
    congr 1
    clear g2 e2 e3 g1 e1
    induction g3 with
    | nil => rfl
    | @cons o i out ids ho _ ih =>
      rw [List.map_cons, ← ih]
      congr 1
      have key : ∀ (w : Str) (j : Nat), (names vocab)[j]? = some w → s.idOf w = (j : Int) := by
        intro w j hj
        have hj1 := (List.getElem?_eq_some_iff.1 hj).1
        have : s.idxToStr.idxOf? w = some j := by
          have e : s.idxToStr = names vocab := by simp [Scheme.idxToStr, names, h1]
          rw [e]
          cases hx : (names vocab).idxOf? w with
          | none => exact absurd (List.mem_of_getElem? hj) (List.idxOf?_eq_none_iff.1 hx)
          | some k =>
            have hk := idxOf?_some_get hx
            rw [(List.getElem?_inj (List.getElem?_eq_some_iff.1 hk).1 hnd).1 (hk.trans hj.symm)]
        simp only [Scheme.idOf, this]
      cases o with
      | none =>
        subst ho
        exact (key unkName 1 hu).symm
      | some w =>
        obtain ⟨j, hj, rfl⟩ := ho
        exact (key w j hj.1).symm

/-- table with a duplicate name: the last one wins (nlcodec: the first one) -/
example : (match PpCodec.make (exTable Level.subword ["a", "b", "ab", "ba", "ab", "b▁a"]) with
    | .ok c => c.encode (lit " abb  xba")
    | .error e => .error e) = .ok [10, 7, 5, 1, 9, 5] := by decide
example : (match PpCodec.make (exTable Level.subword ["a", "b", "ab", "ba", "ab", "b▁a"]) with
    | .ok c => c.pieces (lit " abb  xba")
    | .error e => .error e) = .ok [lit "ab", lit "b", lit "▁", lit "<unk>", lit "ba", lit "▁"] := by decide

end Verif
