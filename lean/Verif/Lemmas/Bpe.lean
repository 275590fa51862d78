import Verif.Lemmas.Scheme
import Verif.Spec.Table
/-! # BPE encoding through a constructed scheme -/

namespace Verif
open Spec

theorem Spec.Indexed.get {tbl : List Ty} (h : Indexed tbl) {t : Ty} (ht : t ∈ tbl) : tbl[t.idx]? = some t := by
  obtain ⟨i, hi, rfl⟩ := List.mem_iff_getElem.1 ht
  have h1 : tbl[i]? = some tbl[i] := List.getElem?_eq_getElem hi
  rw [h i _ h1, h1]

theorem bpeIds_spec {tbl : List Ty} {s : Scheme} (h : Scheme.make .bpe tbl = .ok s) (line : Str) :
    ∃ out ids, Greedy (tbl.map (·.name)) (bpeText line) out ∧ bpeIds s line = .ok ids ∧
      List.Forall₂ (fun o (i : Int) => match o with
          | some w => ∃ t, lastNamed tbl w = some t ∧ i = (t.idx : Int)
          | none => i = (UNK : Int)) out ids := by
  obtain ⟨h1, h2, h3, h4, h5, h6⟩ := make_bpe_ok h
  obtain ⟨out, ids, hg, hl, hf⟩ := encLoop_greedy tbl (UNK : Int) h6 (bpeText line).length (bpeText line) []
    (encFuel (bpeText line).length) (Nat.le_refl _) (by
      rw [encFuel]; exact Nat.mul_le_mul_left _ (by omega))
  refine ⟨out, ids, hg, ?_, hf⟩
  simp only [bpeIds, h5, hl, List.nil_append]

theorem bpeEncodeStr_spec {tbl : List Ty} {s : Scheme} (h : Scheme.make .bpe tbl = .ok s) (hi : Indexed tbl) (line : Str) :
    ∃ out, Greedy (tbl.map (·.name)) (bpeText line) out ∧
      s.encodeStr line = .ok (out.map fun o => o.getD unkName) := by
  obtain ⟨h1, h2, h3, h4, h5, h6⟩ := make_bpe_ok h
  obtain ⟨out, ids, hg, hb, hf⟩ := bpeIds_spec h line
  refine ⟨out, hg, ?_⟩
  simp only [Scheme.encodeStr, h2, hb, h1]
  clear hg hb
  induction hf with
  | nil => rfl
  | @cons o i out ids hoi _ ih =>
    have : ∃ t, pyIndex tbl i = .ok t ∧ t.name = o.getD unkName := by
      cases o with
      | some w =>
        obtain ⟨t, ht, rfl⟩ := hoi
        obtain ⟨hm, hn⟩ := lastNamed_some ht
        exact ⟨t, pyIndex_some (hi.get hm), hn⟩
      | none =>
        obtain ⟨t, ht, hn⟩ := validateReserved_ok h4 1 (by omega)
        subst hoi
        exact ⟨t, pyIndex_some ht, by rw [hn]; rfl⟩
    obtain ⟨t, ht, hn⟩ := this
    simp [namesOf, ht, ih, hn]

theorem bpe_encode_spec {tbl : List Ty} {s : Scheme} (h : Scheme.make .bpe tbl = .ok s) (hi : Indexed tbl) (line : Str) :
    ∃ out, Greedy (tbl.map (·.name)) (bpeText line) out ∧
      s.encodeStr line = .ok (out.map fun o => o.getD unkName) ∧
      s.encode line = .ok (out.map fun o => s.idOf (o.getD unkName)) := by
  obtain ⟨h1, h2, h3, h4, h5, h6⟩ := make_bpe_ok h
  obtain ⟨out, hg, he⟩ := bpeEncodeStr_spec h hi line
  refine ⟨out, hg, he, ?_⟩
  simp only [Scheme.encode, he]
  rw [idsOf_eq (by rw [h2]; decide) h3, List.map_map]
  rfl

theorem greedy_mem {names : List Str} {s : Str} {out : List (Option Str)} (h : Greedy names s out) :
    ∀ w, some w ∈ out → w ∈ names := by
  induction h with
  | nil => simp
  | tok _ hm _ _ ih =>
    intro w hw
    rcases List.mem_cons.1 hw with hw | hw
    · cases hw; exact hm
    · exact ih w hw
  | unk _ _ ih =>
    intro w hw
    rcases List.mem_cons.1 hw with hw | hw
    · cases hw
    · exact ih w hw

/-- when every character is a name, nothing is unknown and the pieces spell the text -/
theorem greedy_covered {names : List Str} {s : Str} {out : List (Option Str)} (h : Greedy names s out)
    (hc : ∀ c ∈ s, [c] ∈ names) : (∀ o ∈ out, o ≠ none) ∧ (out.map fun o => o.getD unkName).flatten = s := by
  induction h with
  | nil => simp
  | @tok w r out _ _ _ _ ih =>
    obtain ⟨a, b⟩ := ih (fun c hcr => hc c (List.mem_append_right _ hcr))
    constructor
    · intro o ho
      rcases List.mem_cons.1 ho with rfl | ho
      · simp
      · exact a o ho
    · simp [b]
  | @unk c r out hn _ _ =>
    exact absurd (by simp) (hn [c] (hc c (by simp)) (by simp))

/-- each unknown stands for one character that is no name by itself -/
theorem greedy_text {names : List Str} {s : Str} {out : List (Option Str)} (h : Greedy names s out) :
    ∃ ps : List Str, ps.flatten = s ∧ List.Forall₂ (fun p o => match o with
      | some w => p = w
      | none => ∃ c, p = [c] ∧ [c] ∉ names) ps out := by
  induction h with
  | nil => exact ⟨[], rfl, .nil⟩
  | @tok w r out _ _ _ _ ih =>
    obtain ⟨ps, h1, h2⟩ := ih
    exact ⟨w :: ps, by simp [h1], .cons rfl h2⟩
  | @unk c r out hn _ ih =>
    obtain ⟨ps, h1, h2⟩ := ih
    refine ⟨[c] :: ps, by simp [h1], .cons ⟨c, rfl, fun hm => hn [c] hm (by simp) (by simp)⟩ h2⟩

end Verif
