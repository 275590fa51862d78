import Verif.Props.Io
import Verif.Props.Restore
/-!
# Property C102 for character and BPE vocabularies: compressing the files does not change the shrunk vocabulary

The lines of a file depend on compression, because only in `.gz` files carriage returns end lines; the words do not.  With other lines the space
marker is counted a different number of times, but its type is reserved.
-/

namespace Verif
open Spec

/-- the result of `shrink_vocab` depends only on whether there is an id, and on the counts of the types that are not reserved -/
theorem shrink_counts {k : Kind} {tbl : List Ty} {s : Scheme} (hs : Scheme.make k tbl = .ok s) (hi : Indexed s.table) (hk : KidsEarlier s.table)
    {l1 l2 : List Str} {e1 e2 : List (List Int)} (h1 : List.Forall₂ (fun l ids => s.encode l = .ok ids) l1 e1)
    (h2 : List.Forall₂ (fun l ids => s.encode l = .ok ids) l2 e2) (hn : e1.flatten = [] ↔ e2.flatten = [])
    (hc : ∀ (i : Nat) (t : Ty), s.table[i]? = some t → t.level = -1 ∨ e1.flatten.count (i : Int) = e2.flatten.count (i : Int)) (minFreq : Int) :
    shrinkVocab s l1 minFreq = shrinkVocab s l2 minFreq := by
  have hz : ∀ {l : List Str} {e : List (List Int)}, List.Forall₂ (fun l ids => s.encode l = .ok ids) l e → e.flatten = [] →
      shrinkVocab s l minFreq = .error .value := by
    intro l e h h0
    refine C28_no_ids_raises (fun x hx => ?_) minFreq
    obtain ⟨ids, hm, hids⟩ := mem_of_forall₂_right h.flip x hx
    rw [List.flatten_eq_nil_iff] at h0
    rw [hids, h0 ids hm]
  by_cases h0 : e1.flatten = []
  · rw [hz h1 h0, hz h2 (hn.1 h0)]
  · obtain ⟨m1, n1, a1, a2, a3, _⟩ := C28_keeps_needed hs hi hk h1 h0 minFreq
    obtain ⟨m2, n2, b1, b2, b3, _⟩ := C28_keeps_needed hs hi hk h2 (fun h => h0 (hn.2 h)) minFreq
    have hneed : ∀ {x y : List Int}, (∀ (i : Nat) (t : Ty), s.table[i]? = some t → t.level = -1 ∨ x.count (i : Int) = y.count (i : Int)) →
        ∀ i, Needed s.table x minFreq i → Needed s.table y minFreq i := by
      intro x y hxy i h
      induction h with
      | own ht hr =>
        refine .own ht ?_
        rcases hr with hr | hr
        · exact .inl hr
        · rcases hxy _ _ ht with e | e
          · exact .inl e
          · exact .inr (e ▸ hr)
      | kid _ ht hm ih => exact .kid ih ht hm
    have hm : m1 = m2 := by
      refine List.Perm.eq_of_pairwise (fun a b _ _ hab hba => absurd hab (Nat.lt_asymm hba)) a2 b2 ?_
      refine (List.perm_ext_iff_of_nodup (a2.imp fun h => Nat.ne_of_lt h) (b2.imp fun h => Nat.ne_of_lt h)).2 fun i => ?_
      rw [a3, b3]
      exact ⟨hneed hc i, hneed (fun i t ht => (hc i t ht).imp id Eq.symm) i⟩
    have hnew : ∀ {l : List Str} {m : List Nat} {n : List Ty}, shrinkVocab s l minFreq = .ok (m, n) → newTable s.table (revMap m) m [] = .ok n := by
      intro l m n h
      simp only [shrinkVocab] at h
      repeat' (split at h <;> try cases h)
      assumption
    have e1 := hnew a1
    have e2 := hnew b1
    rw [hm, e2] at e1
    cases e1
    rw [a1, b1, hm]

theorem idOf_space {s : Scheme} (hv : validateReserved s.table = .ok ()) : s.idOf [SP] = 5 := by
  have h : ∀ j (hj : j < 6), s.idxToStr[j]? = some (reservedNames[j]'(by simpa [reservedNames] using hj)) := by
    intro j hj
    obtain ⟨t, ht, hn⟩ := validateReserved_ok hv j hj
    rw [Scheme.idxToStr, List.getElem?_map, ht]
    simp [hn]
  have h5 : s.idxToStr.idxOf? [SP] = some 5 := by
    rw [List.idxOf?_eq_some_iff]
    refine ⟨(List.getElem?_eq_some_iff.1 (h 5 (by omega))).1, ?_, ?_⟩
    · have := h 5 (by omega)
      rw [List.getElem?_eq_getElem (List.getElem?_eq_some_iff.1 (h 5 (by omega))).1] at this
      exact Option.some.inj this
    · intro j hj
      have hj6 : j < 6 := by omega
      have := h j hj6
      rw [List.getElem?_eq_getElem (List.getElem?_eq_some_iff.1 this).1] at this
      rw [Option.some.inj this]
      clear this
      have hd : ∀ n ∈ reservedNames.take 5, n ≠ [SP] := by decide
      exact hd _ (List.mem_take_iff_getElem.2 ⟨j, by simp [reservedNames]; omega, rfl⟩)
  simp only [Scheme.idOf, h5]
  rfl

/-- counts of ids other than that of the space marker -/
theorem count_other {x y : List Int} (h : x.filter (· ≠ 5) = y.filter (· ≠ 5)) {i : Nat} (hi : i ≠ 5) : x.count (i : Int) = y.count (i : Int) := by
  have hp : (fun z : Int => decide (z ≠ 5)) (i : Int) = true := by simpa using by omega
  rw [← List.count_filter (p := fun z : Int => decide (z ≠ 5)) hp, ← List.count_filter (l := y) (p := fun z : Int => decide (z ≠ 5)) hp, h]

/-- what the words of the files are, in whatever lines they come -/
theorem stream_words : ∀ (files : List IoFile) (ts : List Str) (ws : List (List Str)),
    List.Forall₂ (fun (f : IoFile) t => Replaced f.chunks.flatten t) files ts →
    List.Forall₂ Tokens ts ws → (readAsStream files).flatMap split = ws.flatten := by
  intro files
  induction files with
  | nil => intro ts ws h1 h2; cases h1; cases h2; rfl
  | cons f files ih =>
    intro ts ws h1 h2
    cases h1 with
    | cons a1 a2 =>
      cases h2 with
      | cons b1 b2 =>
        have := ih _ _ a2 b2
        rw [readAsStream] at this ⊢
        rw [List.flatMap_cons, List.flatMap_append, this, split_io, (C102_text _ _).2 a1, split_of_tokens b1]
        rfl

/-- C102 for character vocabularies: only the words count, when the type of the space marker is at the level of reserved types, as in every learned
vocabulary. -/
theorem C102_chars {tbl : List Ty} {s : Scheme} (hs : Scheme.make .char tbl = .ok s) (hi : Indexed tbl) (hk : KidsEarlier tbl)
    (hr : ∀ t, tbl[5]? = some t → t.level = -1) {files files' : List IoFile} {ts ts' : List Str} {ws ws' : List (List Str)}
    (h1 : List.Forall₂ (fun (f : IoFile) t => Replaced f.chunks.flatten t) files ts) (h2 : List.Forall₂ Tokens ts ws)
    (h1' : List.Forall₂ (fun (f : IoFile) t => Replaced f.chunks.flatten t) files' ts') (h2' : List.Forall₂ Tokens ts' ws')
    (hw : ws.flatten = ws'.flatten) (minFreq : Int) : shrinkFiles s files minFreq = shrinkFiles s files' minFreq := by
  obtain ⟨htab, hkind, hd, _, hv⟩ := make_char_ok hs
  subst htab
  have hsp := idOf_space hv
  have henc : ∀ l : Str, s.encode l = .ok ((join [SP] (split l)).map fun c => s.idOf [c]) := by
    intro l
    rw [Scheme.encode, Scheme.encodeStr, hkind]
    dsimp only
    rw [idsOf_eq (by rw [hkind]; decide) hd _, List.map_map]
    rfl
  have hall : ∀ ls : List Str, List.Forall₂ (fun l ids => s.encode l = .ok ids) ls (ls.map fun l => (join [SP] (split l)).map fun c => s.idOf [c]) := by
    intro ls
    induction ls with
    | nil => exact .nil
    | cons l ls ih => exact .cons (henc l) ih
  have hjoin : ∀ vs : List Str, ((join [SP] vs).map fun c => s.idOf [c]).filter (· ≠ 5) = (vs.flatten.map fun c => s.idOf [c]).filter (· ≠ 5) := by
    intro vs
    rw [join_eq_intercalate]
    induction vs with
    | nil => rfl
    | cons v vs ih =>
      cases vs with
      | nil => simp
      | cons w vs =>
        rw [List.intercalate_cons_cons, List.map_append, List.map_append, List.filter_append, List.filter_append, ih]
        simp [hsp]
  have hflat : ∀ ls : List Str, (ls.map fun l => (join [SP] (split l)).map fun c => s.idOf [c]).flatten.filter (· ≠ 5) =
      ((ls.flatMap split).flatten.map fun c => s.idOf [c]).filter (· ≠ 5) := by
    intro ls
    induction ls with
    | nil => rfl
    | cons l ls ih =>
      rw [List.map_cons, List.flatten_cons, List.filter_append, ih, hjoin, List.flatMap_cons, List.flatten_append, List.map_append, List.filter_append]
  have hnil : ∀ ls : List Str, (ls.map fun l => (join [SP] (split l)).map fun c => s.idOf [c]).flatten = [] ↔ ls.flatMap split = [] := by
    intro ls
    rw [List.flatten_eq_nil_iff, List.flatMap_eq_nil_iff]
    simp only [List.mem_map, forall_exists_index, and_imp, forall_apply_eq_imp_iff₂, List.map_eq_nil_iff]
    refine forall₂_congr fun l _ => ?_
    constructor
    · intro h
      cases hsl : split l with
      | nil => rfl
      | cons w r =>
        have hwt := split_isToken (s := l) (w := w) (by rw [hsl]; simp)
        rw [hsl, join_eq_intercalate] at h
        cases r with
        | nil => simp at h; exact absurd h hwt.1
        | cons v r => rw [List.intercalate_cons_cons] at h; simp at h
    · intro h
      rw [h]; rfl
  have e1 := stream_words _ _ _ h1 h2
  have e2 := stream_words _ _ _ h1' h2'
  refine shrink_counts hs hi hk (hall _) (hall _) ?_ ?_ minFreq
  · rw [hnil, hnil, e1, e2, hw]
  · intro i t ht
    by_cases h5 : i = 5
    · subst h5; exact .inl (hr t ht)
    · exact .inr (count_other (by rw [hflat, hflat, e1, e2, hw]) h5)

theorem stream_nil (files : List IoFile) : readAsStream files = [] ↔ ∀ f ∈ files, f.chunks.flatten = [] := by
  rw [readAsStream, List.flatMap_eq_nil_iff]
  refine forall₂_congr fun f _ => ?_
  have hkeep : ∀ t : Str, keepLines t = [] ↔ t = [] := by
    intro t
    constructor
    · intro h
      have := (lfLines_keep t).1
      rw [h] at this
      exact this.symm
    · rintro rfl; rfl
  have huniv : ∀ t : Str, univNewlines t = [] ↔ t = [] := by
    intro t
    constructor
    · intro h
      unfold univNewlines at h
      split at h <;> simp_all
    · rintro rfl; rfl
  have hread : readReplace [] f.chunks = [] ↔ f.chunks.flatten = [] := by
    rw [C102_text]
    constructor
    · intro h
      generalize f.chunks.flatten = bs at h
      generalize ht : ([] : Str) = t at h
      cases h <;> simp_all
    · intro h; rw [h]; exact .nil
  rw [IoFile.lines]
  split
  · rw [inpLines, hkeep, huniv, hread]
  · rw [hkeep, hread]

/-- C102 for BPE vocabularies, in which the space marker only ends names, as in every learned one.  A line without words has an id, the marker's; so
there must be some byte in both cases, or none. -/
theorem C102_bpe {tbl : List Ty} {s : Scheme} (hs : Scheme.make .bpe tbl = .ok s) (hi : Indexed tbl) (hk : KidsEarlier tbl)
    (hr : ∀ t, tbl[5]? = some t → t.level = -1) (hm : ∀ n ∈ names tbl, MarkerLast n)
    {files files' : List IoFile} {ts ts' : List Str} {ws ws' : List (List Str)}
    (h1 : List.Forall₂ (fun (f : IoFile) t => Replaced f.chunks.flatten t) files ts) (h2 : List.Forall₂ Tokens ts ws)
    (h1' : List.Forall₂ (fun (f : IoFile) t => Replaced f.chunks.flatten t) files' ts') (h2' : List.Forall₂ Tokens ts' ws')
    (hw : ws.flatten = ws'.flatten) (he : (∀ f ∈ files, f.chunks.flatten = []) ↔ ∀ f ∈ files', f.chunks.flatten = []) (minFreq : Int) :
    shrinkFiles s files minFreq = shrinkFiles s files' minFreq := by
  obtain ⟨htab, hkind, hd, hv, _⟩ := make_bpe_ok hs
  subst htab
  have hsp := idOf_space hv
  -- ids of a line
  have hex : ∃ enc : Str → List Int, ∀ l, s.encode l = .ok (enc l) ∧ enc l ≠ [] := by
    have : ∀ l, ∃ ids, s.encode l = .ok ids ∧ ids ≠ [] := by
      intro l
      obtain ⟨out, hg, _, h⟩ := bpe_encode_spec hs hi l
      refine ⟨_, h, ?_⟩
      have h0 : bpeText l ≠ [] := by simp [bpeText]
      generalize bpeText l = t at hg h0
      cases hg <;> simp_all
    choose enc henc using this
    exact ⟨enc, henc⟩
  obtain ⟨enc, henc⟩ := hex
  have hall : ∀ ls : List Str, List.Forall₂ (fun l ids => s.encode l = .ok ids) ls (ls.map enc) := by
    intro ls
    induction ls with
    | nil => exact .nil
    | cons l ls ih => exact .cons (henc l).1 ih
  have hspn : [SP] ∈ names s.table := by
    obtain ⟨t, ht, hn⟩ := validateReserved_ok hv 5 (by omega)
    exact List.mem_map.2 ⟨t, List.mem_of_getElem? ht, by rw [hn]; rfl⟩
  have hline : ∀ l : Str, (enc l).filter (· ≠ 5) = ((split l).flatMap enc).filter (· ≠ 5) := by
    intro l
    by_cases h0 : split l = []
    · obtain ⟨out, hg, _, h⟩ := bpe_encode_spec hs hi l
      rw [(henc l).1] at h
      have e := Except.ok.inj h
      have ht : bpeText l = [SP] := by rw [bpeText, split_strip, h0]; rfl
      rw [ht] at hg
      have hu : Greedy (names s.table) [SP] [some [SP]] := by
        have := Greedy.tok (names := names s.table) (w := [SP]) (r := []) (by simp) hspn (fun w' _ hp => by simpa using hp.length_le) .nil
        simpa using this
      have := hg.unique hu
      subst this
      rw [e, h0]
      simp [hsp]
    · obtain ⟨idss, hf, h⟩ := C81_table hs hi hm (tokens_split l) h0
      rw [(henc l).1] at h
      rw [Except.ok.inj h]
      have : idss = (split l).map enc := by
        clear h h0
        generalize split l = vs at hf ⊢
        induction hf with
        | nil => rfl
        | cons a _ ih =>
          rw [(henc _).1] at a
          rw [List.map_cons, Except.ok.inj a, ← ih]
      rw [this, List.flatMap_def]
  have hflat : ∀ ls : List Str, (ls.map enc).flatten.filter (· ≠ 5) = ((ls.flatMap split).flatMap enc).filter (· ≠ 5) := by
    intro ls
    induction ls with
    | nil => rfl
    | cons l ls ih =>
      rw [List.map_cons, List.flatten_cons, List.filter_append, ih, hline, List.flatMap_cons, List.flatMap_append, List.filter_append]
  have hnil : ∀ ls : List Str, (ls.map enc).flatten = [] ↔ ls = [] := by
    intro ls
    cases ls with
    | nil => simp
    | cons l ls =>
      constructor
      · intro h
        rw [List.map_cons, List.flatten_cons] at h
        exact absurd (List.append_eq_nil_iff.1 h).1 (henc l).2
      · intro h; cases h
  have e1 := stream_words _ _ _ h1 h2
  have e2 := stream_words _ _ _ h1' h2'
  refine shrink_counts hs hi hk (hall _) (hall _) ?_ ?_ minFreq
  · rw [hnil, hnil, stream_nil, stream_nil, he]
  · intro i t ht
    by_cases h5 : i = 5
    · subst h5; exact .inl (hr t ht)
    · exact .inr (count_other (by rw [hflat, hflat, e1, e2, hw]) h5)

/-- C102: the same contents, compressed or not and read in whatever chunks, give the same shrunk vocabulary; for words, and for characters and BPE
with tables like the learned ones.  Missing: the byte and class schemes, see `C102_gz_refuted` and `C102_gz_class_refuted`. -/
theorem C102_compressed_partial {k : Kind} {tbl : List Ty} {s : Scheme} (hs : Scheme.make k tbl = .ok s) (hi : Indexed tbl) (hk : KidsEarlier tbl)
    (hkind : k = .word ∨ (k = .char ∧ ∀ t, tbl[5]? = some t → t.level = -1) ∨
      (k = .bpe ∧ (∀ t, tbl[5]? = some t → t.level = -1) ∧ ∀ n ∈ names tbl, MarkerLast n))
    {files files' : List IoFile} (hf : List.Forall₂ (fun f f' : IoFile => f.chunks.flatten = f'.chunks.flatten) files files') (minFreq : Int) :
    shrinkFiles s files minFreq = shrinkFiles s files' minFreq := by
  have hd : ∀ files : List IoFile, ∃ ts ws, List.Forall₂ (fun (f : IoFile) t => Replaced f.chunks.flatten t) files ts ∧ List.Forall₂ Tokens ts ws ∧
      ∀ files', List.Forall₂ (fun f f' : IoFile => f.chunks.flatten = f'.chunks.flatten) files files' →
        List.Forall₂ (fun (f : IoFile) t => Replaced f.chunks.flatten t) files' ts := by
    intro files
    induction files with
    | nil => exact ⟨[], [], .nil, .nil, fun _ h => by cases h; exact .nil⟩
    | cons f files ih =>
      obtain ⟨ts, ws, a, b, c⟩ := ih
      have hrep : Replaced f.chunks.flatten (utf8Decode f.chunks.flatten) := replaced_iff.2 rfl
      refine ⟨_ :: ts, split _ :: ws, .cons hrep a, .cons (tokens_split _) b, ?_⟩
      intro files' h
      cases h with
      | cons h1 h2 => exact .cons (h1 ▸ hrep) (c _ h2)
  obtain ⟨ts, ws, a, b, c⟩ := hd files
  have he : (∀ f ∈ files, f.chunks.flatten = []) ↔ ∀ f ∈ files', f.chunks.flatten = [] := by
    clear a c
    induction hf with
    | nil => simp
    | cons h _ ih => rw [List.forall_mem_cons, List.forall_mem_cons, h, ih]
  rcases hkind with rfl | ⟨rfl, hr⟩ | ⟨rfl, hr, hm⟩
  · exact C102_words_partial hs a b (c _ hf) b rfl minFreq
  · exact C102_chars hs hi hk hr a b (c _ hf) b rfl minFreq
  · exact C102_bpe hs hi hk hr hm a b (c _ hf) b rfl he minFreq

/-- a carriage return inside a line, and bytes that are not UTF-8: the space marker is counted two or three times -/
example : ∀ gz : Bool, (withScheme .bpe exShrinkTbl fun s => (shrinkFiles s [⟨gz, [[97, 98, 13, 0xE2], [0x82, 10]]⟩] 1).map (·.1)) =
    .ok [0, 1, 2, 3, 4, 5, 6, 7, 9] := by decide +kernel

example : ∀ gz : Bool, (withScheme .char (exTable Level.char ["a", "b"]) fun s => (shrinkFiles s [⟨gz, [[97, 13, 97, 98, 10]]⟩] 2).map (·.1)) =
    .ok [0, 1, 2, 3, 4, 5, 6] := by decide +kernel

/-- without the condition on names compression matters: `b▁a` is found only when the carriage return does not end the line -/
example : (withScheme .bpe (exTable Level.subword ["a", "b", "b▁a"]) fun s => (shrinkFiles s [⟨false, [[98, 13, 97]]⟩] 1).map (·.1)) =
      .ok [0, 1, 2, 3, 4, 5, 8] ∧
    (withScheme .bpe (exTable Level.subword ["a", "b", "b▁a"]) fun s => (shrinkFiles s [⟨true, [[98, 13, 97]]⟩] 1).map (·.1)) =
      .ok [0, 1, 2, 3, 4, 5, 6, 7] := by decide +kernel

/-- C102 does not extend to the class scheme: a carriage return inside a line is part of a label in a plain file and ends the line in a `.gz` file. -/
theorem C102_gz_class_refuted {s : Scheme} (hs : Scheme.make .clasz [⟨lit "a", 0, 0, 1, []⟩, ⟨lit "b", 0, 1, 1, []⟩] = .ok s) :
    (shrinkFiles s [⟨false, [[97, 13, 98, 10, 97]]⟩] 1).map (·.1) = .ok [0] ∧
    (shrinkFiles s [⟨true, [[97, 13, 98, 10, 97]]⟩] 1).map (·.1) = .ok [0, 1] := by
  have h1 : (withScheme .clasz [⟨lit "a", 0, 0, 1, []⟩, ⟨lit "b", 0, 1, 1, []⟩] fun s =>
      (shrinkFiles s [⟨false, [[97, 13, 98, 10, 97]]⟩] 1).map (·.1)) = .ok [0] := by decide +kernel
  have h2 : (withScheme .clasz [⟨lit "a", 0, 0, 1, []⟩, ⟨lit "b", 0, 1, 1, []⟩] fun s =>
      (shrinkFiles s [⟨true, [[97, 13, 98, 10, 97]]⟩] 1).map (·.1)) = .ok [0, 1] := by decide +kernel
  rw [withScheme, hs] at h1 h2
  exact ⟨h1, h2⟩

end Verif
