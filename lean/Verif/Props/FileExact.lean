import Verif.Props.Accept
import Verif.Props.EncodeAll
import Verif.Lemmas.Abugida
import Verif.Lemmas.Chars
/-!
# Properties C12, C13: exactly which tables and schemes survive the disk
-/

namespace Verif
open Spec

theorem line_sub {text : Str} {ls : List Str} (h : Lines text ls) : ∀ l ∈ ls, ∀ c ∈ l, c ∈ text := by
  induction h with
  | nil => simp
  | last _ _ => simp
  | lf _ _ ih | crlf _ _ ih | cr _ _ _ ih =>
    intro l hl c hc
    rcases List.mem_cons.1 hl with rfl | hl
    · simp [hc]
    · have := ih l hl c hc
      simp [this]

/-- names read from a file have no tab, no line break and only characters of the file -/
theorem read_names {J : Json} {text : Str} {tbl : List Ty} {h : Option Header} (hr : readVocab J text = .ok (tbl, h)) :
    ∀ t ∈ tbl, ∀ c ∈ t.name, c ≠ 9 ∧ c ≠ 10 ∧ c ≠ 13 ∧ c ∈ text := by
  obtain ⟨ls, hl⟩ := lines_exist text
  have key : ∀ ms : List Str, (∀ m ∈ ms, m ∈ ls) → RowsOf ms tbl → ∀ t ∈ tbl, ∀ c ∈ t.name, c ≠ 9 ∧ c ≠ 10 ∧ c ≠ 13 ∧ c ∈ text := by
    intro ms hms hrows t ht c hc
    obtain ⟨i, hi⟩ := List.mem_iff_getElem?.1 ht
    have hlt : i < ms.length := by
      rw [← hrows.1]
      exact (List.getElem?_eq_some_iff.1 hi).1
    obtain ⟨c0, c2, c3, more, h1, h2, _⟩ := hrows.2 i ms[i] t (List.getElem?_eq_getElem hlt) hi
    have hm : ms[i] ∈ ls := hms _ (List.getElem_mem hlt)
    have hcl : c ∈ ms[i] := by
      obtain ⟨a, b, e, _⟩ := h1
      rw [e]
      refine List.mem_append_left _ (List.mem_append_right _ ?_)
      rw [List.intercalate_cons_cons, List.intercalate_cons_cons]
      simp [hc]
    have hnb := lines_noBreak hl _ hm
    refine ⟨fun e => h2 t.name (by simp) (e ▸ hc), fun e => hnb.1 (e ▸ hcl), fun e => hnb.2 (e ▸ hcl), line_sub hl _ hm c hcl⟩
  rcases (C107_read J hl tbl h).1 hr with ⟨l0, rest, _, _, e, _, _, _, hrows⟩ | ⟨l0, rest, e, _, _, hrows⟩
  · exact key rest (fun m hm => by rw [e]; simp [hm]) hrows
  · exact key ls (fun m hm => hm) hrows

theorem written_plain {J : Json} {sch : Option Str} {tbl : List Ty} {text : Str} (h : writeOut J sch tbl = .ok text) :
    ∀ c ∈ text, ¬ (0xD800 ≤ c ∧ c ≤ 0xDFFF) := by
  unfold writeOut at h
  split at h
  · cases h
  split at h
  · cases h
  cases h
  intro c hc
  have := (List.mem_filter.1 hc).2
  simp only [isSurrogate, Bool.not_eq_true', decide_eq_false_iff_not] at this
  omega

/-- C12, exactly: a table comes back from the file written for it if and only if it has a type, every type is at its own index, kids are earlier types, and no name has
a tab, a line break or a surrogate. -/
theorem C12_iff {J : Json} (hJ : JsonLaws J) (sch : Option Str) (hsch : ∀ n, sch = some n → ∀ c ∈ n, 97 ≤ c ∧ c ≤ 122) (tbl : List Ty) :
    (∃ text h, writeOut J sch tbl = .ok text ∧ readVocab J text = .ok (tbl, h)) ↔
      tbl ≠ [] ∧ Indexed tbl ∧ KidsEarlier tbl ∧ ∀ t ∈ tbl, ∀ c ∈ t.name, c ≠ 9 ∧ c ≠ 10 ∧ c ≠ 13 ∧ ¬ (0xD800 ≤ c ∧ c ≤ 0xDFFF) := by
  constructor
  · rintro ⟨text, h, hw, hr⟩
    obtain ⟨h1, h2⟩ := C14_read_wellformed_partial J hr
    refine ⟨?_, h1, h2, fun t ht c hc => ?_⟩
    · rintro rfl
      rw [C12_empty_refused] at hw
      cases hw
    · obtain ⟨g1, g2, g3, g4⟩ := read_names hr t ht c hc
      exact ⟨g1, g2, g3, written_plain hw c g4⟩
  · rintro ⟨h1, h2, h3, h4⟩
    obtain ⟨text, h, hw, hr⟩ := C12_vocab_round_trip hJ sch hsch h1 h2 h3 h4
    exact ⟨text, _, hw, hr⟩

/-- C13, exactly: a scheme comes back from the file it was saved to if and only if its table does. -/
theorem C13_iff {J : Json} (hJ : JsonLaws J) {k : Kind} {tbl : List Ty} {s : Scheme} (hs : Scheme.make k tbl = .ok s) :
    (∃ text, s.save J = .ok text ∧ loadScheme J text = .ok s) ↔
      s.table ≠ [] ∧ Indexed s.table ∧ KidsEarlier s.table ∧ ∀ t ∈ s.table, ∀ c ∈ t.name, c ≠ 9 ∧ c ≠ 10 ∧ c ≠ 13 ∧ ¬ (0xD800 ≤ c ∧ c ≤ 0xDFFF) := by
  constructor
  swap
  · rintro ⟨h1, h2, h3, h4⟩
    exact C13_save_load_partial hJ hs h1 h2 h3 h4
  rintro ⟨text, hw, hl⟩
  have hne : s.table ≠ [] := by
    intro e
    rw [Scheme.save, e, C12_empty_refused] at hw
    cases hw
  unfold loadScheme at hl
  split at hl
  · cases hl
  rename_i types hd hr
  split at hl
  · cases hl
  rename_i k' _
  have htab := made_table hl
  rcases htab with e | e
  · obtain ⟨h1, h2⟩ := C14_read_wellformed_partial J hr
    rw [e] at hne ⊢
    refine ⟨hne, h1, h2, fun t ht c hc => ?_⟩
    obtain ⟨g1, g2, g3, g4⟩ := read_names hr t ht c hc
    exact ⟨g1, g2, g3, written_plain hw c g4⟩
  · rw [e]
    have hi : ∀ i < 258, ((byteVocab[i]?).map fun t : Ty => decide (t.idx = i ∧ t.kids = [])) = some true := by decide +kernel
    have hget : ∀ (i : Nat) (t : Ty), byteVocab[i]? = some t → t.idx = i ∧ t.kids = [] := by
      intro i t ht
      have := hi i (by have := (List.getElem?_eq_some_iff.1 ht).1; rwa [byteVocab_length] at this)
      rw [ht] at this
      simpa using this
    have hn : ∀ n ∈ names byteVocab, ∀ c ∈ n, 13 < c ∧ c < 0xD800 := by decide +kernel
    refine ⟨by decide, fun i t ht => (hget i t ht).1, fun i t ht k hk => ?_, fun t ht c hc => ?_⟩
    · rw [(hget i t ht).2] at hk
      simp at hk
    · have := hn t.name (List.mem_map.2 ⟨t, ht, rfl⟩) c hc
      omega

/-- the table of the examples of C12; one with a tab in a name -/
example : exFileTbl ≠ [] ∧ (∀ t ∈ exFileTbl, ∀ c ∈ t.name, c ≠ 9 ∧ c ≠ 10 ∧ c ≠ 13 ∧ ¬ (0xD800 ≤ c ∧ c ≤ 0xDFFF)) ∧
    ((writeOut pyJson none exFileTbl).bind (readVocab pyJson)).toOption.map (·.1) = some exFileTbl ∧
    ((writeOut pyJson none [⟨lit "a\tb", 0, 0, 1, []⟩]).bind (readVocab pyJson)).toOption.map (·.1) ≠ some [⟨lit "a\tb", 0, 0, 1, []⟩] := by decide +kernel

end Verif
