import Verif.Props.Shrink
import Verif.Lemmas.Quality
import Verif.Lemmas.VocabFile
/-!
# Property C116: which lines have the same encoding

-/

namespace Verif
open Spec

/-- a piece that is not in the table, or the name of the unknown type itself -/
def Spec.Unknown (tbl : List Ty) (p : Str) : Prop := p ∉ names tbl ∨ p = lit "<unk>"

/-- pieces that a table cannot tell apart: equal or both unknown -/
def Spec.Alike (tbl : List Ty) (p q : Str) : Prop := p = q ∨ Unknown tbl p ∧ Unknown tbl q

theorem idOf_same {s : Scheme} (hk : s.kind ≠ .clasz) (hv : validateReserved s.table = .ok ()) (p q : Str) :
    s.idOf p = s.idOf q ↔ Alike s.table p q := by
  have hu : ∀ p, s.idOf p = 1 ↔ Unknown s.table p := idOf_eq_unk hk hv
  constructor
  · intro h
    by_cases hp : s.idOf p = 1
    · exact Or.inr ⟨(hu p).1 hp, (hu q).1 (h ▸ hp)⟩
    · left
      have hq : s.idOf q ≠ 1 := h ▸ hp
      have hunk : s.unk = 1 := by simp [Scheme.unk, hk, UNK]
      cases h1 : s.idxToStr.idxOf? p with
      | none => exact absurd (by simp [Scheme.idOf, h1, hunk]) hp
      | some i =>
        cases h2 : s.idxToStr.idxOf? q with
        | none => exact absurd (by simp [Scheme.idOf, h2, hunk]) hq
        | some j =>
          simp only [Scheme.idOf, h1, h2] at h
          have hij : i = j := by omega
          subst hij
          have := (idxOf?_some_get h1).symm.trans (idxOf?_some_get h2)
          exact Option.some.inj this
  · rintro (rfl | ⟨h1, h2⟩)
    · rfl
    · rw [(hu p).2 h1, (hu q).2 h2]

theorem map_same {α β : Type} {f : α → β} {R : α → α → Prop} (h : ∀ x y, f x = f y ↔ R x y) :
    ∀ (a b : List α), a.map f = b.map f ↔ List.Forall₂ R a b := by
  intro a
  induction a with
  | nil => intro b; cases b <;> simp
  | cons x a ih => intro b; cases b <;> simp [h, ih]

/-- C116, words: the same ids exactly if the tokens are equal or unknown in both lines -/
theorem C116_word {tbl : List Ty} {s : Scheme} (hs : Scheme.make .word tbl = .ok s) {a b : Str} {ta tb : List Str} (ha : Tokens a ta) (hb : Tokens b tb) :
    s.encode a = s.encode b ↔ List.Forall₂ (Alike tbl) ta tb := by
  obtain ⟨h1, h2, h3, h4, h5⟩ := make_word_ok hs
  have e : ∀ {l ws}, Tokens l ws → s.encode l = .ok (ws.map s.idOf) := by
    intro l ws hl
    simp only [Scheme.encode, Scheme.encodeStr, h2, split_of_tokens hl]
    exact idsOf_eq (by rw [h2]; decide) h3 _
  rw [e ha, e hb, Except.ok.injEq, map_same (fun x y => idOf_same (by rw [h2]; decide) (by rw [h1]; exact h5) x y), h1]

/-- C116, characters: the same ids exactly if the characters of the tokens, joined by U+2581, are equal or unknown in both lines -/
theorem C116_char {tbl : List Ty} {s : Scheme} (hs : Scheme.make .char tbl = .ok s) {a b : Str} {ta tb : List Str} (ha : Tokens a ta) (hb : Tokens b tb) :
    s.encode a = s.encode b ↔ List.Forall₂ (fun c d => c = d ∨ [c] ∉ names tbl ∧ [d] ∉ names tbl)
      (List.intercalate [0x2581] ta) (List.intercalate [0x2581] tb) := by
  obtain ⟨h1, h2, h3, h4, h5⟩ := make_char_ok hs
  have e : ∀ {l ws}, Tokens l ws → s.encode l = .ok ((List.intercalate [0x2581] ws).map fun c => s.idOf [c]) := by
    intro l ws hl
    simp only [Scheme.encode, Scheme.encodeStr, h2, split_of_tokens hl, join_eq_intercalate]
    rw [idsOf_eq (by rw [h2]; decide) h3, List.map_map]
    rfl
  rw [e ha, e hb, Except.ok.injEq, map_same (R := fun c d => c = d ∨ [c] ∉ names tbl ∧ [d] ∉ names tbl)]
  intro c d
  rw [idOf_same (by rw [h2]; decide) (by rw [h1]; exact h5), h1]
  have hu : ∀ c : Nat, Unknown tbl [c] ↔ [c] ∉ names tbl := by
    intro c
    have : ([c] : Str) ≠ lit "<unk>" := by
      intro h
      have h2 := congrArg List.length h
      have h3 : (lit "<unk>").length = 5 := by decide
      rw [h3, List.length_singleton] at h2
      omega
    simp [Unknown, this]
  simp [Alike, hu]

/-- C116, BPE: the same ids exactly if the pieces found by longest match are equal or unknown in both lines -/
theorem C116_bpe {tbl : List Ty} {s : Scheme} (hs : Scheme.make .bpe tbl = .ok s) (hi : Indexed tbl) {a b : Str} {ta tb : List Str}
    (ha : Tokens a ta) (hb : Tokens b tb) {ga gb : List (Option Str)} (hga : Greedy (names tbl) (List.intercalate [0x2581] ta ++ [0x2581]) ga)
    (hgb : Greedy (names tbl) (List.intercalate [0x2581] tb ++ [0x2581]) gb) :
    s.encode a = s.encode b ↔ List.Forall₂ (fun o o' => Alike tbl (o.getD (lit "<unk>")) (o'.getD (lit "<unk>"))) ga gb := by
  obtain ⟨h1, h2, h3, h4, _⟩ := make_bpe_ok hs
  have e : ∀ {l ws g}, Tokens l ws → Greedy (names tbl) (List.intercalate [0x2581] ws ++ [0x2581]) g →
      s.encode l = .ok (g.map fun o => s.idOf (o.getD unkName)) := by
    intro l ws g hl hg
    obtain ⟨out, g1, _, g2⟩ := bpe_encode_spec hs hi l
    rw [bpeText, split_strip, split_of_tokens hl, join_eq_intercalate] at g1
    have := hg.unique g1
    subst this
    exact g2
  rw [e ha hga, e hb hgb, Except.ok.injEq, map_same fun x y => idOf_same (by rw [h2]; decide) (by rw [h1]; exact h4) _ _, h1]
  rfl

/-- C116, BPE on covered text: the same ids exactly if the tokens joined by U+2581 are the same -/
theorem C116_bpe_covered {tbl : List Ty} {s : Scheme} (hs : Scheme.make .bpe tbl = .ok s) (hi : Indexed tbl) {a b : Str} {ta tb : List Str}
    (ha : Tokens a ta) (hb : Tokens b tb) (hca : ∀ w ∈ ta, ∀ c ∈ w, [c] ∈ names tbl) (hcb : ∀ w ∈ tb, ∀ c ∈ w, [c] ∈ names tbl) :
    s.encode a = s.encode b ↔ List.intercalate [0x2581] ta = List.intercalate [0x2581] tb := by
  obtain ⟨h1, h2, h3, h4, _⟩ := make_bpe_ok hs
  have hsp : ([0x2581] : Str) ∈ names tbl := by
    obtain ⟨t, ht, hn⟩ := validateReserved_ok h4 5 (by decide)
    refine List.mem_map.2 ⟨t, List.mem_of_getElem? ht, ?_⟩
    rw [hn]; rfl
  have hcov : ∀ {ws : List Str}, (∀ w ∈ ws, ∀ c ∈ w, [c] ∈ names tbl) → ∀ c ∈ List.intercalate [0x2581] ws ++ [0x2581], [c] ∈ names tbl := by
    intro ws h c hc
    rcases List.mem_append.1 hc with hc | hc
    · induction ws with
      | nil => simp at hc
      | cons w ws ih =>
        cases ws with
        | nil => simp at hc; exact h w (by simp) c hc
        | cons w2 ws =>
          rw [List.intercalate_cons_cons] at hc
          simp only [List.mem_append, List.mem_singleton] at hc
          rcases hc with (hc | hc) | hc
          · exact h w (by simp) c hc
          · rw [hc]; exact hsp
          · exact ih (fun w hw => h w (by simp [hw])) (List.mem_append_left _ hc) hc
    · simp only [List.mem_singleton] at hc
      rw [hc]; exact hsp
  constructor
  · intro h
    obtain ⟨ga, g1, _, g2⟩ := bpe_encode_spec hs hi a
    obtain ⟨gb, k1, _, k2⟩ := bpe_encode_spec hs hi b
    rw [bpeText, split_strip, split_of_tokens ha, join_eq_intercalate] at g1
    rw [bpeText, split_strip, split_of_tokens hb, join_eq_intercalate] at k1
    have h5 := (C116_bpe hs hi ha hb g1 k1).1 h
    obtain ⟨c1, c2⟩ := greedy_covered g1 (hcov hca)
    obtain ⟨d1, d2⟩ := greedy_covered k1 (hcov hcb)
    have key : ∀ {x y : List (Option Str)}, List.Forall₂ (fun o o' => Alike tbl (o.getD (lit "<unk>")) (o'.getD (lit "<unk>"))) x y →
        (∀ w, some w ∈ x → w ∈ names tbl) → (∀ w, some w ∈ y → w ∈ names tbl) → (∀ o ∈ x, o ≠ none) → (∀ o ∈ y, o ≠ none) →
        (x.map fun o => o.getD unkName).flatten = (y.map fun o => o.getD unkName).flatten := by
      intro x y hxy
      induction hxy with
      | nil => intros; rfl
      | @cons o o' x y hoo _ ih =>
        intro m1 m2 n1 n2
        simp only [List.map_cons, List.flatten_cons]
        rw [ih (fun w h => m1 w (by simp [h])) (fun w h => m2 w (by simp [h])) (fun o h => n1 o (by simp [h])) (fun o h => n2 o (by simp [h]))]
        congr 1
        obtain ⟨w, rfl⟩ := Option.ne_none_iff_exists'.1 (n1 o (by simp))
        obtain ⟨w', rfl⟩ := Option.ne_none_iff_exists'.1 (n2 o' (by simp))
        simp only [Option.getD_some] at hoo ⊢
        rcases hoo with h | ⟨u1, u2⟩
        · exact h
        · rcases u1 with u1 | u1
          · exact absurd (m1 w (by simp)) u1
          · rcases u2 with u2 | u2
            · exact absurd (m2 w' (by simp)) u2
            · rw [u1, u2]
    have h6 := key h5 (greedy_mem g1) (greedy_mem k1) c1 d1
    rw [c2, d2] at h6
    exact List.append_cancel_right h6
  · intro h
    have : bpeText a = bpeText b := by
      rw [bpeText, bpeText, split_strip, split_strip, split_of_tokens ha, split_of_tokens hb, join_eq_intercalate, join_eq_intercalate]
      exact congrArg (· ++ [SP]) h
    obtain ⟨ga, g1, _, g2⟩ := bpe_encode_spec hs hi a
    obtain ⟨gb, k1, _, k2⟩ := bpe_encode_spec hs hi b
    rw [this] at g1
    have := g1.unique k1
    subst this
    rw [g2, k2]

/-- C116, classes: the same id exactly if the labels are the same or both are not in the table -/
theorem C116_class {tbl : List Ty} {s : Scheme} (hs : Scheme.make .clasz tbl = .ok s) {a b la lb : Str} (ha : Trimmed a la) (hb : Trimmed b lb) :
    s.encode a = s.encode b ↔ la = lb ∨ la ∉ names tbl ∧ lb ∉ names tbl := by
  obtain ⟨h1, h2, h3, h4⟩ := mkInvertible_ok hs
  have e : ∀ {l t}, Trimmed l t → s.encode l = .ok [s.idOf t] := by
    intro l t hl
    rw [trimmed_iff] at hl
    subst hl
    simp only [Scheme.encode, Scheme.encodeStr, h2]
    exact idsOf_eq (by rw [h2]; decide) h3 _
  have hunk : s.unk = -1 := by simp [Scheme.unk, h2]
  have hn : names tbl = s.idxToStr := by rw [Scheme.idxToStr, h1]; rfl
  rw [e ha, e hb, Except.ok.injEq, List.cons.injEq, hn]
  simp only [and_true]
  constructor
  · intro h
    cases x1 : s.idxToStr.idxOf? la with
    | none =>
      cases x2 : s.idxToStr.idxOf? lb with
      | none => exact Or.inr ⟨List.idxOf?_eq_none_iff.1 x1, List.idxOf?_eq_none_iff.1 x2⟩
      | some j =>
        simp only [Scheme.idOf, x1, x2, hunk] at h
        omega
    | some i =>
      cases x2 : s.idxToStr.idxOf? lb with
      | none =>
        simp only [Scheme.idOf, x1, x2, hunk] at h
        omega
      | some j =>
        simp only [Scheme.idOf, x1, x2] at h
        have hij : i = j := by omega
        subst hij
        exact Or.inl (Option.some.inj ((idxOf?_some_get x1).symm.trans (idxOf?_some_get x2)))
  · rintro (rfl | ⟨x1, x2⟩)
    · rfl
    · simp only [Scheme.idOf, List.idxOf?_eq_none_iff.2 x1, List.idxOf?_eq_none_iff.2 x2]

/-- C116, bytes: lines with the same ids are the same -/
theorem C116_byte {tbl : List Ty} {s : Scheme} (hs : Scheme.make .byte tbl = .ok s) {a b : Str} {ids : List Int} (ha : s.encode a = .ok ids)
    (hb : s.encode b = .ok ids) : a = b := by
  obtain ⟨_, h2, h3, h4⟩ := mkInvertible_ok hs
  have e : ∀ {l}, s.encode l = .ok ids → ∃ bs, utf8Encode l = .ok bs ∧ (∀ x ∈ bs, x < 256) ∧ (∀ p ∈ bs.map codeToStr, p ∈ s.idxToStr) ∧
      ids = (bs.map codeToStr).map s.idOf := by
    intro l hl
    simp only [Scheme.encode, Scheme.encodeStr, h2] at hl
    cases hu : utf8Encode l with
    | error e => rw [hu] at hl; cases hl
    | ok bs =>
      rw [hu] at hl
      obtain ⟨x, y⟩ := idsOf_byte_ok h2 h3 hl
      obtain ⟨bs', q1, q2⟩ := utf8Encode_ok l (utf8Encode_scalar hu)
      rw [hu] at q1
      cases q1
      exact ⟨bs, rfl, q2, x, y⟩
  obtain ⟨x, x1, x2, x3, x4⟩ := e ha
  obtain ⟨y, y1, y2, y3, y4⟩ := e hb
  have hxy : x.map codeToStr = y.map codeToStr := by
    have h5 := x4.symm.trans y4
    revert h5 x3 y3
    generalize x.map codeToStr = p
    generalize y.map codeToStr = q
    intro x3 y3 h5
    induction p generalizing q with
    | nil => cases q with
      | nil => rfl
      | cons _ _ => simp at h5
    | cons u p ih =>
      cases q with
      | nil => simp at h5
      | cons v q =>
        simp only [List.map_cons, List.cons.injEq] at h5
        rw [ih q (fun w hw => x3 w (by simp [hw])) (fun w hw => y3 w (by simp [hw])) h5.2]
        congr 1
        cases z1 : s.idxToStr.idxOf? u with
        | none => exact absurd (x3 u (by simp)) (List.idxOf?_eq_none_iff.1 z1)
        | some i =>
          cases z2 : s.idxToStr.idxOf? v with
          | none => exact absurd (y3 v (by simp)) (List.idxOf?_eq_none_iff.1 z2)
          | some j =>
            have h6 := h5.1
            simp only [Scheme.idOf, z1, z2] at h6
            have hij : i = j := by omega
            subst hij
            exact Option.some.inj ((idxOf?_some_get z1).symm.trans (idxOf?_some_get z2))
  have hbs : x = y := by
    clear x1 y1 x3 y3 x4 y4
    induction x generalizing y with
    | nil => cases y with
      | nil => rfl
      | cons _ _ => simp at hxy
    | cons u x ih =>
      cases y with
      | nil => simp at hxy
      | cons v y =>
        simp only [List.map_cons, List.cons.injEq] at hxy
        rw [ih (fun w hw => x2 w (by simp [hw])) y (fun w hw => y2 w (by simp [hw])) hxy.2, codeToStr_inj (x2 u (by simp)) (y2 v (by simp)) hxy.1]
  subst hbs
  rw [← utf8Decode_encode x1, ← utf8Decode_encode y1]

example : (withScheme .word (exTable Level.word ["a", "b"]) fun s => .ok (s.encode (lit "a q <unk>"), s.encode (lit " a  r s"), s.encode (lit "b r s"))) =
    .ok (.ok [6, 1, 1], .ok [6, 1, 1], .ok [7, 1, 1]) := by decide +kernel

example : (withScheme .bpe exShrinkTbl fun s => .ok (s.encode (lit "ab▁c"), s.encode (lit "ab  c"), s.encode (lit "abc"))) =
    .ok (.ok [9, 5, 8, 5], .ok [9, 5, 8, 5], .ok [9, 8, 5]) := by decide +kernel

example : (withScheme .char (exTable Level.char ["a", "b"]) fun s => .ok (s.encode (lit "a q"), s.encode (lit "a▁r"), s.encode (lit "b q"))) =
    .ok (.ok [6, 5, 1], .ok [6, 5, 1], .ok [7, 5, 1]) := by decide +kernel

example : (withScheme .clasz (exTable Level.clasz ["a", "b"]) fun s => .ok (s.encode (lit " a"), s.encode (lit "q"), s.encode (lit "r"))) =
    .ok (.ok [6], .ok [-1], .ok [-1]) := by decide +kernel

example : (withScheme .byte [] fun s => .ok (s.encode (lit "é"), s.encode (lit " é"))) = .ok (.ok [195, 169], .ok [32, 195, 169]) := by decide +kernel

end Verif
