import Verif.Lemmas.Spark
import Verif.Lemmas.SparkCount
import Verif.Props.Multipart
/-!
# Properties C63, C64, C66, C76: distributed jobs

All theorems hold for every order of rows, every partitioning, every order and bracketing of reductions, and every schedule of tasks.
-/

namespace Verif
open Spec

/-! ## C63 -/

theorem mem_join_rows {src tgt : List Str} {i : Nat} {s t : Str} :
    (i, s, t) ∈ (src.zipIdx.flatMap fun s => (tgt.zipIdx.filter fun t => t.2 == s.2).map fun t => (s.2, s.1, t.1)) ↔
      src[i]? = some s ∧ tgt[i]? = some t := by
  simp only [List.mem_flatMap, List.mem_map, List.mem_filter, Prod.exists, Prod.mk.injEq, List.mk_mem_zipIdx_iff_getElem?, beq_iff_eq]
  constructor
  · rintro ⟨a, j, h1, b, k, ⟨h2, rfl⟩, rfl, rfl, rfl⟩
    exact ⟨h1, h2⟩
  · rintro ⟨h1, h2⟩
    exact ⟨s, i, h1, t, i, ⟨h2, rfl⟩, rfl, rfl, rfl⟩

theorem join_ids_nodup (src tgt : List Str) :
    ((src.zipIdx.flatMap fun s => (tgt.zipIdx.filter fun t => t.2 == s.2).map fun t => (s.2, s.1, t.1)).map (·.1)).Nodup := by
  have hone : ∀ (l : List Str) (k n : Nat), ((l.zipIdx n).filter fun t => t.2 == k).length ≤ 1 := by
    intro l
    induction l with
    | nil => intro k n; simp
    | cons a l ih =>
      intro k n
      rw [List.zipIdx_cons, List.filter_cons]
      split
      · rename_i h
        have : (l.zipIdx (n + 1)).filter (fun t => t.2 == k) = [] := by
          rw [List.filter_eq_nil_iff]
          intro p hp
          have := List.mem_zipIdx hp
          simp only [beq_iff_eq] at h ⊢
          omega
        simp [this]
      · exact ih k (n + 1)
  have key : ∀ (l : List Str) (n : Nat), (((l.zipIdx n).flatMap fun s => (tgt.zipIdx.filter fun t => t.2 == s.2).map fun t => (s.2, s.1, t.1)).map (·.1)).Nodup := by
    intro l
    induction l with
    | nil => intro n; simp
    | cons a l ih =>
      intro n
      rw [List.zipIdx_cons, List.flatMap_cons, List.map_append, List.nodup_append]
      refine ⟨?_, ih (n + 1), ?_⟩
      · have := hone tgt n 0
        revert this
        generalize tgt.zipIdx.filter (fun t => t.2 == n) = l
        intro this
        match l, this with
        | [], _ => simp
        | [x], _ => simp
        | _ :: _ :: _, h => simp at h
      · intro x hx y hy hxy
        simp only [List.mem_map, List.mem_flatMap, Prod.exists] at hx hy
        obtain ⟨i, s, t, ⟨_, _, _, h1⟩, rfl⟩ := hx
        obtain ⟨j, s', t', ⟨_, _, h2, _, _, _, h3⟩, rfl⟩ := hy
        have := List.mem_zipIdx h2
        injection h1 with h1
        injection h3 with h3
        omega
  exact key src 0

/-- the pair of lines `i`, if both are there, not empty, and tokenized to something -/
def PairAt (src tgt : List Str) (srcTok tgtTok : Str → List Int) (i : Nat) (x y : List Int) : Prop :=
  ∃ s t, src[i]? = some s ∧ tgt[i]? = some t ∧ s ≠ [] ∧ t ≠ [] ∧ x = srcTok s ∧ y = tgtTok t ∧ x ≠ [] ∧ y ≠ []

theorem tok_rows {ord : List (Nat × Str × Str) → List (Nat × Str × Str)} (ho : ∀ l, (ord l).Perm l) (src tgt : List Str)
    (srcTok tgtTok : Str → List Int) (raw : List (Nat × Str × Str))
    (hraw : raw = ord (src.zipIdx.flatMap fun s => (tgt.zipIdx.filter fun t => t.2 == s.2).map fun t => (s.2, s.1, t.1)))
    (tok : List (Nat × List Int × List Int))
    (htok : tok = ((raw.filter fun r => r.2.1 ≠ [] && r.2.2 ≠ []).map fun r => (r.1, srcTok r.2.1, tgtTok r.2.2)).filter
      fun r => r.2.1.length ≠ 0 && r.2.2.length ≠ 0) :
    (tok.map (·.1)).Nodup ∧ ∀ i x y, (i, x, y) ∈ tok ↔ PairAt src tgt srcTok tgtTok i x y := by
  have hm : ∀ i s t, (i, s, t) ∈ raw ↔ src[i]? = some s ∧ tgt[i]? = some t := by
    intro i s t; rw [hraw, (ho _).mem_iff, mem_join_rows]
  have hn : (raw.map (·.1)).Nodup := by rw [hraw, ((ho _).map _).nodup_iff]; exact join_ids_nodup src tgt
  subst htok
  constructor
  · refine List.Nodup.sublist (List.Sublist.map _ List.filter_sublist) ?_
    rw [List.map_map]
    exact List.Nodup.sublist (List.Sublist.map _ List.filter_sublist) hn
  · intro i x y
    simp only [List.mem_filter, List.mem_map, Prod.exists, Prod.mk.injEq, PairAt]
    constructor
    · rintro ⟨⟨j, s, t, ⟨h1, h2⟩, rfl, rfl, rfl⟩, h3⟩
      rw [hm] at h1
      simp at h2 h3
      exact ⟨s, t, h1.1, h1.2, h2.1, h2.2, rfl, rfl, h3.1, h3.2⟩
    · rintro ⟨s, t, h1, h2, h3, h4, rfl, rfl, h5, h6⟩
      refine ⟨⟨i, s, t, ⟨(hm _ _ _).2 ⟨h1, h2⟩, ?_⟩, rfl, rfl, rfl⟩, ?_⟩
      · simp [h3, h4]
      · simp [h5, h6]

theorem sliceTo_nat {α : Type} (l : List α) (n : Nat) : sliceTo l (n : Int) = l.take n := by
  rw [sliceTo, sliceBound, if_neg (by omega), Int.toNat_natCast, List.take_eq_take_iff]
  omega

/-- C63: with truncation, exactly the pairs of non-empty lines with non-empty encodings are kept, each once, under its line number, cut
to prefixes of at most the given lengths; provided there is at least one such pair. -/
theorem C63_truncate {ord : List (Nat × Str × Str) → List (Nat × Str × Str)} (ho : ∀ l, (ord l).Perm l) {src tgt : List Str}
    (hlen : src.length = tgt.length) (srcLen tgtLen : Nat) (srcTok tgtTok : Str → List Int) (hne : ∃ i x y, PairAt src tgt srcTok tgtTok i x y) :
    ∃ rows, readRawBitextTok ord src tgt true srcLen tgtLen srcTok tgtTok = .ok rows ∧ (rows.map (·.1)).Nodup ∧
      (∀ i x y, (i, x, y) ∈ rows ↔ ∃ x' y', PairAt src tgt srcTok tgtTok i x' y' ∧ x = x'.take srcLen ∧ y = y'.take tgtLen) ∧
      ∀ r ∈ rows, r.2.1.length ≤ srcLen ∧ r.2.2.length ≤ tgtLen := by
  rw [readRawBitextTok, readRawBitext, if_pos hlen]
  simp only
  generalize hraw : ord (src.zipIdx.flatMap fun s => (tgt.zipIdx.filter fun t => t.2 == s.2).map fun t => (s.2, s.1, t.1)) = raw
  generalize htok : ((raw.filter fun r => r.2.1 ≠ [] && r.2.2 ≠ []).map fun r => (r.1, srcTok r.2.1, tgtTok r.2.2)).filter
      (fun r => r.2.1.length ≠ 0 && r.2.2.length ≠ 0) = tok
  obtain ⟨h1, h2⟩ := tok_rows ho src tgt srcTok tgtTok raw hraw.symm tok htok.symm
  simp only [if_true, sliceTo_nat]
  have hmem : ∀ i x y, (i, x, y) ∈ tok.map (fun r => (r.1, r.2.1.take srcLen, r.2.2.take tgtLen)) ↔
      ∃ x' y', PairAt src tgt srcTok tgtTok i x' y' ∧ x = x'.take srcLen ∧ y = y'.take tgtLen := by
    intro i x y
    simp only [List.mem_map, Prod.exists, Prod.mk.injEq]
    constructor
    · rintro ⟨j, x', y', h, rfl, rfl, rfl⟩; exact ⟨x', y', (h2 _ _ _).1 h, rfl, rfl⟩
    · rintro ⟨x', y', h, rfl, rfl⟩; exact ⟨i, x', y', (h2 _ _ _).2 h, rfl, rfl, rfl⟩
  have hids : ((tok.map (fun r => (r.1, r.2.1.take srcLen, r.2.2.take tgtLen))).map (·.1)).Nodup := by
    rw [List.map_map]; exact h1
  obtain ⟨i, x, y, hi⟩ := hne
  have hin := (hmem i _ _).2 ⟨x, y, hi, rfl, rfl⟩
  revert hmem hids hin
  generalize tok.map (fun r => (r.1, r.2.1.take srcLen, r.2.2.take tgtLen)) = rows
  intro hmem hids hin
  cases rows with
  | nil => simp at hin
  | cons r rows =>
    refine ⟨r :: rows, rfl, hids, hmem, ?_⟩
    rintro ⟨i, x, y⟩ hr
    obtain ⟨x', y', _, rfl, rfl⟩ := (hmem _ _ _).1 hr
    exact ⟨by simp, by simp⟩

/-- C63, what holds without truncation: exactly the pairs strictly shorter than the limits are kept, unchanged and under their line
numbers, if there is one.  Missing: pairs of exactly the maximal length, see `C63_limit_refuted`. -/
theorem C63_filter_partial {ord : List (Nat × Str × Str) → List (Nat × Str × Str)} (ho : ∀ l, (ord l).Perm l) {src tgt : List Str}
    (hlen : src.length = tgt.length) (srcLen tgtLen : Int) (srcTok tgtTok : Str → List Int)
    (hne : ∃ i x y, PairAt src tgt srcTok tgtTok i x y ∧ (x.length : Int) < srcLen ∧ (y.length : Int) < tgtLen) :
    ∃ rows, readRawBitextTok ord src tgt false srcLen tgtLen srcTok tgtTok = .ok rows ∧ (rows.map (·.1)).Nodup ∧
      ∀ i x y, (i, x, y) ∈ rows ↔ PairAt src tgt srcTok tgtTok i x y ∧ (x.length : Int) < srcLen ∧ (y.length : Int) < tgtLen := by
  rw [readRawBitextTok, readRawBitext, if_pos hlen]
  simp only
  generalize hraw : ord (src.zipIdx.flatMap fun s => (tgt.zipIdx.filter fun t => t.2 == s.2).map fun t => (s.2, s.1, t.1)) = raw
  generalize htok : ((raw.filter fun r => r.2.1 ≠ [] && r.2.2 ≠ []).map fun r => (r.1, srcTok r.2.1, tgtTok r.2.2)).filter
      (fun r => r.2.1.length ≠ 0 && r.2.2.length ≠ 0) = tok
  obtain ⟨h1, h2⟩ := tok_rows ho src tgt srcTok tgtTok raw hraw.symm tok htok.symm
  simp only [Bool.false_eq_true, if_false]
  have hmem : ∀ i x y, (i, x, y) ∈ tok.filter (fun r => decide ((r.2.1.length : Int) < srcLen) && decide ((r.2.2.length : Int) < tgtLen)) ↔
      PairAt src tgt srcTok tgtTok i x y ∧ (x.length : Int) < srcLen ∧ (y.length : Int) < tgtLen := by
    intro i x y
    rw [List.mem_filter, h2]
    simp
  have hids : ((tok.filter (fun r => decide ((r.2.1.length : Int) < srcLen) && decide ((r.2.2.length : Int) < tgtLen))).map (·.1)).Nodup :=
    List.Nodup.sublist (List.Sublist.map _ List.filter_sublist) h1
  obtain ⟨i, x, y, hi⟩ := hne
  have hin := (hmem i _ _).2 hi
  revert hmem hids hin
  generalize tok.filter (fun r => decide ((r.2.1.length : Int) < srcLen) && decide ((r.2.2.length : Int) < tgtLen)) = rows
  intro hmem hids hin
  cases rows with
  | nil => simp at hin
  | cons r rows => exact ⟨r :: rows, rfl, hids, hmem⟩

/-- C63: files of different lengths are refused. -/
theorem C63_unequal_refused (ord : List (Nat × Str × Str) → List (Nat × Str × Str)) {src tgt : List Str} (h : src.length ≠ tgt.length) (trunc : Bool)
    (srcLen tgtLen : Int) (srcTok tgtTok : Str → List Int) : readRawBitextTok ord src tgt trunc srcLen tgtLen srcTok tgtTok = .error .assertion := by
  rw [readRawBitextTok, readRawBitext, if_neg h]

/-- tokenizer of the examples: one number per character -/
def exTok (s : Str) : List Int := s.map fun c => (c : Int)

/-- C63 is false at the limit: without truncation a pair of exactly the maximal length is dropped. -/
theorem C63_limit_refuted : readRawBitextTok id [lit "abc", lit "ab"] [lit "xyz", lit "xy"] false 3 3 exTok exTok = .ok [(1, [97, 98], [120, 121])] := by
  decide

/-- C63 is false when nothing is left, be it that no pair has two non-empty encodings or that, without truncation, all are too long: IndexError instead of
an empty result. -/
theorem C63_nothing_left_refuted (ord : List (Nat × Str × Str) → List (Nat × Str × Str)) (ho : ∀ l, (ord l).Perm l) {src tgt : List Str}
    (hlen : src.length = tgt.length) (trunc : Bool) (srcLen tgtLen : Int) (srcTok tgtTok : Str → List Int)
    (hne : ∀ i x y, PairAt src tgt srcTok tgtTok i x y → trunc = false ∧ ¬ ((x.length : Int) < srcLen ∧ (y.length : Int) < tgtLen)) :
    readRawBitextTok ord src tgt trunc srcLen tgtLen srcTok tgtTok = .error .index := by
  rw [readRawBitextTok, readRawBitext, if_pos hlen]
  simp only
  generalize hraw : ord (src.zipIdx.flatMap fun s => (tgt.zipIdx.filter fun t => t.2 == s.2).map fun t => (s.2, s.1, t.1)) = raw
  generalize htok : ((raw.filter fun r => r.2.1 ≠ [] && r.2.2 ≠ []).map fun r => (r.1, srcTok r.2.1, tgtTok r.2.2)).filter
      (fun r => r.2.1.length ≠ 0 && r.2.2.length ≠ 0) = tok
  obtain ⟨_, h2⟩ := tok_rows ho src tgt srcTok tgtTok raw hraw.symm tok htok.symm
  cases trunc with
  | true =>
    have : tok = [] := by
      apply List.eq_nil_iff_forall_not_mem.2
      rintro ⟨i, x, y⟩ h
      exact absurd (hne i x y ((h2 _ _ _).1 h)).1 (by simp)
    subst this
    rfl
  | false =>
    have : (tok.filter fun r => decide ((r.2.1.length : Int) < srcLen) && decide ((r.2.2.length : Int) < tgtLen)) = [] := by
      apply List.filter_eq_nil_iff.2
      rintro ⟨i, x, y⟩ h
      have := (hne i x y ((h2 _ _ _).1 h)).2
      simpa using this
    simp only [Bool.false_eq_true, if_false, this]

example : readRawBitextTok id [lit "abc", lit "abcd"] [lit "xyz", lit "xy"] false 3 3 exTok exTok = .error .index := by decide
example : readRawBitextTok List.reverse [lit "abc", [], lit "d"] [lit "xy", lit "z", lit "z"] true 2 2 exTok exTok =
    .ok [(2, [100], [122]), (0, [97, 98], [120, 121])] := by decide
/-- a negative limit counts from the end -/
example : readRawBitextTok id [lit "abc"] [lit "xy"] true (-1) 2 exTok exTok = .ok [(0, [97, 98], [120, 121])] := by decide
example : PairAt [lit "abc", []] [lit "xy", lit "z"] exTok exTok 0 [97, 98, 99] [120, 121] :=
  ⟨_, _, rfl, rfl, by decide, by decide, by decide, by decide, by decide, by decide⟩

/-! ## C64 -/

/-- the lines that are counted -/
def Counted (dedup : Bool) (files : List (List Str)) (lines : List Str) : Prop :=
  if dedup then lines.Nodup ∧ ∀ l, l ∈ lines ↔ l ∈ files.flatten else lines.Perm files.flatten

/-- C64, exact counts: the counts of words and of characters of words are exact for every word but `<!S!>`, and the line count exceeds
the number of lines by the number of occurrences of `<!S!>`; for at least one file and one line.  Missing from the full statement: texts
with the word `<!S!>` (`C64_tag_refuted`), no files or lines (`C64_empty_refuted`). -/
theorem C64_counts_partial {R1 R2 : Reduction Str Int} (h1 : R1.Lawful) (h2 : R2.Lawful) {distinct : List Str → List Str}
    (hd : ∀ l, (distinct l).Nodup ∧ ∀ x, x ∈ distinct l ↔ x ∈ l) {dedup : Bool} {files : List (List Str)} {lines : List Str} {toks : List (List Str)}
    (hc : Counted dedup files lines) (ht : List.Forall₂ Tokens lines toks) (hne : lines ≠ []) {others : List Str}
    (hothers : others = toks.flatten.filter fun w => w ≠ lit "<!S!>") :
    ∃ wf cf, wordCounts R1 R2 distinct dedup files = .ok (wf, cf, (lines.length : Int) + toks.flatten.count (lit "<!S!>")) ∧
      (Dict.keys wf).Nodup ∧ (∀ w f, (w, f) ∈ wf ↔ w ∈ others ∧ f = others.count w) ∧
      (Dict.keys cf).Nodup ∧ ∀ c f, (c, f) ∈ cf ↔ ∃ ch, c = [ch] ∧ ch ∈ others.flatten ∧ f = others.flatten.count ch := by
  have htag : lit "<!S!>" = sentTag := rfl
  rw [htag] at hothers ⊢
  clear htag
  have htoks : toks = lines.map split := by
    clear hc hne hothers
    induction ht with
    | nil => rfl
    | cons h _ ih => rw [List.map_cons, ← ih, split_of_tokens h]
  cases files with
  | nil =>
    exfalso
    apply hne
    rw [Counted] at hc
    split at hc
    · apply List.eq_nil_iff_forall_not_mem.2
      intro l hl
      simpa using (hc.2 l).1 hl
    · simpa using hc
  | cons file files =>
    have hdf : files.foldl (fun df df2 => df ++ df2) file = (file :: files).flatten := by
      rw [List.flatten_cons]
      clear hc
      induction files generalizing file with
      | nil => simp
      | cons f fs ih => rw [List.foldl_cons, ih]; simp
    generalize hdf' : (if dedup then distinct (file :: files).flatten else (file :: files).flatten) = df
    have hp : df.Perm lines := by
      rw [← hdf']
      rw [Counted] at hc
      cases dedup with
      | true =>
        simp only [if_true] at hc ⊢
        rw [List.perm_ext_iff_of_nodup (hd _).1 hc.1]
        intro l
        rw [(hd _).2, hc.2]
      | false =>
        simp only [Bool.false_eq_true, if_false] at hc ⊢
        exact hc.symm
    rw [wordCounts]
    simp only [hdf, hdf']
    have hws : (df.flatMap fun row => sentTag :: split (strip row)).Perm (List.replicate lines.length sentTag ++ toks.flatten) := by
      refine (hp.flatMap_right _).trans ?_
      rw [htoks]
      clear hp hc ht hne htoks hdf hdf' hothers
      induction lines with
      | nil => simp
      | cons l ls ih =>
        rw [List.flatMap_cons, List.length_cons, List.replicate_succ, List.map_cons, List.flatten_cons, split_strip]
        simp only [List.cons_append]
        refine List.Perm.cons _ ?_
        refine (List.Perm.append_left _ ih).trans ?_
        rw [← List.append_assoc, ← List.append_assoc]
        exact (List.perm_append_comm).append_right _
    generalize df.flatMap (fun row => sentTag :: split (strip row)) = ws at hws
    obtain ⟨r1, r2⟩ := reduce_ones h1 ws
    replace r2 : ∀ k f, (k, f) ∈ reduceByKey (· + ·) R1 (ws.map fun w => (w, (1 : Int))) ↔ k ∈ ws ∧ f = (ws.count k : Int) := fun k f => by
      rw [r2]; congr!
    generalize reduceByKey (· + ·) R1 (ws.map fun w => (w, (1 : Int))) = wf0 at r1 r2
    have hcnt : ws.count sentTag = lines.length + toks.flatten.count sentTag := by
      rw [hws.count_eq, List.count_append, List.count_replicate_self]
    have hget : Dict.get? wf0 sentTag = some ((lines.length : Int) + toks.flatten.count sentTag) := by
      rw [get?_iff_mem r1, r2]
      refine ⟨?_, by rw [hcnt]; omega⟩
      rw [hws.mem_iff]
      have : lines.length ≠ 0 := fun h => hne (List.length_eq_zero_iff.1 h)
      simp [this]
    rw [hget]
    simp only
    have hwf : ∀ w f, (w, f) ∈ Dict.erase wf0 sentTag ↔ w ∈ others ∧ f = (others.count w : Int) := by
      intro w f
      rw [mem_erase_iff r1, r2, hws.mem_iff, hws.count_eq, hothers]
      constructor
      · rintro ⟨⟨hw, hf⟩, hne⟩
        refine ⟨?_, ?_⟩
        · rw [List.mem_filter]
          rcases List.mem_append.1 hw with hw | hw
          · exact absurd (List.mem_replicate.1 hw).2 hne
          · exact ⟨hw, by simpa using hne⟩
        · rw [hf, List.count_append, List.count_filter (by simpa using hne), List.count_replicate]
          simp [Ne.symm hne]
      · rintro ⟨hw, hf⟩
        rw [List.mem_filter] at hw
        have hne : w ≠ sentTag := by simpa using hw.2
        refine ⟨⟨List.mem_append_right _ hw.1, ?_⟩, hne⟩
        rw [hf, List.count_append, List.count_filter (by simpa using hne), List.count_replicate]
        simp [Ne.symm hne]
    have hnd := Dict.nodup_keys_erase r1 sentTag
    obtain ⟨c1, c2⟩ := reduceByKey_sum h2 ((Dict.erase wf0 sentTag).flatMap fun r => r.1.map fun ch => (([ch] : Str), r.2))
    refine ⟨_, _, rfl, hnd, hwf, c1, fun c f => ?_⟩
    rw [c2]
    have hkey : c ∈ (List.map (fun x => x.1) ((Dict.erase wf0 sentTag).flatMap fun r => r.1.map fun ch => (([ch] : Str), r.2))) ↔
        ∃ ch, c = [ch] ∧ ch ∈ others.flatten := by
      simp only [List.mem_map, List.mem_flatMap, Prod.exists, List.mem_flatten]
      constructor
      · rintro ⟨a, b, ⟨w, f, hw, ch, hch, h⟩, rfl⟩
        injection h with h _
        exact ⟨ch, h.symm, w, ((hwf _ _).1 hw).1, hch⟩
      · rintro ⟨ch, rfl, w, hw, hch⟩
        exact ⟨_, _, ⟨w, _, (hwf _ _).2 ⟨hw, rfl⟩, ch, hch, rfl⟩, rfl⟩
    rw [hkey]
    constructor
    · rintro ⟨⟨ch, rfl, hch⟩, hf⟩
      exact ⟨ch, rfl, hch, by rw [hf, ← chars_sum hnd hwf]; congr!⟩
    · rintro ⟨ch, rfl, hch, hf⟩
      exact ⟨⟨ch, rfl, hch⟩, by rw [hf, ← chars_sum hnd hwf]; congr!⟩

/-- C64 for texts without the word `<!S!>`: all counts are exact, whatever the order of files, lines and reductions. -/
theorem C64_exact_partial {R1 R2 : Reduction Str Int} (h1 : R1.Lawful) (h2 : R2.Lawful) {distinct : List Str → List Str}
    (hd : ∀ l, (distinct l).Nodup ∧ ∀ x, x ∈ distinct l ↔ x ∈ l) {dedup : Bool} {files : List (List Str)} {lines : List Str} {toks : List (List Str)}
    (hc : Counted dedup files lines) (ht : List.Forall₂ Tokens lines toks) (hne : lines ≠ []) (htag : lit "<!S!>" ∉ toks.flatten) :
    ∃ wf cf, wordCounts R1 R2 distinct dedup files = .ok (wf, cf, (lines.length : Int)) ∧
      (Dict.keys wf).Nodup ∧ (∀ w f, (w, f) ∈ wf ↔ w ∈ toks.flatten ∧ f = toks.flatten.count w) ∧
      (Dict.keys cf).Nodup ∧ ∀ c f, (c, f) ∈ cf ↔ ∃ ch, c = [ch] ∧ ch ∈ toks.flatten.flatten ∧ f = toks.flatten.flatten.count ch := by
  have hf : toks.flatten = toks.flatten.filter fun w => w ≠ lit "<!S!>" := by
    rw [eq_comm, List.filter_eq_self]
    intro w hw
    simp only [ne_eq, decide_eq_true_eq]
    rintro rfl
    exact htag hw
  obtain ⟨wf, cf, h, r⟩ := C64_counts_partial h1 h2 hd hc ht hne hf
  rw [List.count_eq_zero_of_not_mem htag] at h
  exact ⟨wf, cf, by rw [h]; simp, r⟩

/-- reduction of the examples: values bracketed to the left, keys in reverse order -/
def exRed : Reduction Str Int := ⟨fun _ vs => match vs with
  | [] => .leaf 0
  | v :: vs => vs.foldl (fun t v => .node t (.leaf v)) (.leaf v), List.reverse⟩

theorem exRed_lawful : exRed.Lawful := by
  constructor
  · intro k vs h
    cases vs with
    | nil => exact absurd rfl h
    | cons v vs =>
      have : ∀ (vs : List Int) (t : RTree Int), (vs.foldl (fun t v => RTree.node t (.leaf v)) t).leaves = t.leaves ++ vs := by
        intro vs
        induction vs with
        | nil => simp
        | cons a vs ih => intro t; rw [List.foldl_cons, ih]; simp [RTree.leaves]
      show ((vs.foldl (fun t v => RTree.node t (.leaf v)) (.leaf v)).leaves).Perm (v :: vs)
      rw [this]
      exact List.Perm.refl _
  · intro l; exact List.reverse_perm l

/-- C64 is false for texts with the word `<!S!>`: the line count is wrong and the word is missing. -/
theorem C64_tag_refuted : wordCounts exRed exRed List.dedup false [[lit "a <!S!> b"], [lit "a"]] =
    .ok ([(lit "a", 2), (lit "b", 1)], [(lit "b", 1), (lit "a", 2)], 3) := by decide +kernel

/-- C64 is false for empty input: no files raise IndexError, no lines raise KeyError. -/
theorem C64_empty_refuted {R1 R2 : Reduction Str Int} (h1 : R1.Lawful) {distinct : List Str → List Str}
    (hd : ∀ l, (distinct l).Nodup ∧ ∀ x, x ∈ distinct l ↔ x ∈ l) (dedup : Bool) : wordCounts R1 R2 distinct dedup [] = .error .index ∧
    ∀ n, wordCounts R1 R2 distinct dedup (List.replicate (n + 1) []) = .error .key := by
  refine ⟨rfl, fun n => ?_⟩
  rw [List.replicate_succ, wordCounts]
  have hdf : ∀ n, (List.replicate n ([] : List Str)).foldl (fun df df2 => df ++ df2) [] = [] := by
    intro n
    induction n with
    | zero => rfl
    | succ n ih => rw [List.replicate_succ, List.foldl_cons]; exact ih
  have hdd : distinct [] = [] := by
    apply List.eq_nil_iff_forall_not_mem.2
    intro x hx
    simpa using ((hd []).2 x).1 hx
  have : (if dedup = true then distinct [] else []) = [] := by split <;> simp [hdd]
  simp only [hdf, this, List.flatMap_nil, List.map_nil]
  have hr : reduceByKey (· + ·) R1 ([] : List (Str × Int)) = [] := by
    have := h1.ord []
    rw [reduceByKey]
    simpa using this
  rw [hr]
  rfl

example : wordCounts exRed exRed List.dedup true [[lit "ab a", lit "c"], [lit "c"]] =
    .ok ([(lit "c", 1), (lit "a", 1), (lit "ab", 1)], [(lit "b", 1), (lit "a", 2), (lit "c", 1)], 2) := by decide +kernel
example : Counted true [[lit "ab a", lit "c"], [lit "c"]] [lit "c", lit "ab a"] ∧ Counted false [[lit "ab a", lit "c"], [lit "c"]] [lit "c", lit "ab a", lit "c"] :=
  ⟨⟨by decide, by simp; tauto⟩, by show List.Perm _ _; decide⟩

/-! ## C66 -/

section
variable {κ : Type} [DecidableEq κ]

/-- what Spark guarantees: tasks take their steps in order, listing and repartitioning lose nothing -/
structure Cluster.Lawful (cl : Cluster κ) : Prop where
  glob : ∀ l, (cl.globOrd l).Perm l
  sched : ∀ ls, Interleaved ls (cl.sched ls)
  repart : ∀ n parts, 0 < n → (cl.repart n parts).length = n ∧ (cl.repart n parts).flatten.Perm parts.flatten

/-- what `rdd_as_db` leaves in the directory if no partition is empty -/
theorem rdd_stored {cl : Cluster κ} (hcl : cl.Lawful) {names : List Str} (hnn : names ≠ [])
    {parts : List (List (κ × List (List Int)))} (hne : parts.flatten ≠ []) (hnd : (parts.flatten.map (·.1)).Nodup)
    (hw : ∀ r ∈ parts.flatten, r.2.length = names.length) (hv : Exact parts.flatten)
    (hlen : ((parts.flatten.map fun r => (r.2.map List.length).sum).sum : Nat) < 2 ^ 64) {repartition : Int}
    {cs : List (List (κ × List (List Int)))} (hcs : cs = if 0 < repartition then cl.repart repartition.toNat parts else parts) (hfull : ∀ c ∈ cs, c ≠ [])
    {maxParts : Nat} (hm : 1 ≤ maxParts) {overwrite : Bool} {dir : Dir κ} (hs : overwrite = true ∨ dir = none ∨ dir = some []) :
    cs.flatten.Perm parts.flatten ∧ (rddAsDb cl overwrite maxParts names repartition parts dir).res = .ok () ∧
    ∃ (dbs : List (Db κ)) (q : List (Db κ × Nat)) (d : Dict Str (FileC κ)), List.Forall₂ (fun c db => Db.create cl.bufSize names c = .ok db) cs dbs ∧
      q.Perm dbs.zipIdx ∧ q ≠ [] ∧ q.length = cs.length ∧ runFx (rddAsDb cl overwrite maxParts names repartition parts dir).fx dir = some d ∧
      Dict.get? d flagName = some (.success (q.map fun p => (partName (Nat.clog 10 maxParts) p.2, p.1.len)) names) ∧
      ∀ p ∈ q, Dict.get? d (partName (Nat.clog 10 maxParts) p.2) = some (.db p.1) := by
  have hperm : cs.flatten.Perm parts.flatten := by
    rw [hcs]; split
    · exact (hcl.repart _ _ (by omega)).2
    · exact List.Perm.refl _
  have hwr : written cl repartition parts = cs := hcs.symm
  have hne' : cs ≠ [] := by
    rintro rfl
    exact hne (by simpa using hperm.symm)
  have hvc : ∀ c ∈ cs, Exact c := fun c hc r hr => hv r (hperm.mem_iff.1 (List.mem_flatten.2 ⟨c, hc, hr⟩))
  have hcr : ∀ c ∈ cs, ∃ db, Db.create cl.bufSize names c = .ok db := by
    intro c hc
    refine C38_created_partial cl.bufSize hnn (hfull c hc) ?_ (fun r hr => hw r (hperm.mem_iff.1 (List.mem_flatten.2 ⟨c, hc, hr⟩))) (hvc c hc) ?_
    · have : (cs.flatten.map (·.1)).Nodup := ((hperm.map _).nodup_iff).2 hnd
      exact List.Nodup.sublist ((List.sublist_flatten_of_mem hc).map _) this
    · rw [← (hperm.map _).sum_nat] at hlen
      exact lt_of_le_of_lt (flatten_len_le _ hc) hlen
  obtain ⟨dbs, hd⟩ : ∃ dbs : List (Db κ), List.Forall₂ (fun c db => Db.create cl.bufSize names c = .ok db) cs dbs := by
    clear hcs hfull hperm hwr hne' hvc
    induction cs with
    | nil => exact ⟨[], .nil⟩
    | cons c cs ih =>
      obtain ⟨db, h⟩ := hcr c (by simp)
      obtain ⟨dbs, h'⟩ := ih fun c hc => hcr c (by simp [hc])
      exact ⟨db :: dbs, .cons h h'⟩
  obtain ⟨q, hq, h1, d, h2, g1, g2⟩ := rddAsDb_ok (repartition := repartition) (parts := parts) hcl.glob hcl.sched hm hs (hwr ▸ hd)
  have hql : q.length = cs.length := by rw [hq.length_eq, List.length_zipIdx, hd.length_eq]
  have hqne : q ≠ [] := by
    rintro rfl
    exact hne' (List.length_eq_zero_iff.1 hql.symm)
  exact ⟨hperm, h1, dbs, q, d, hd, hq, hqne, hql, h2, g1, fun p hp => g2 p (hq.mem_iff.1 hp)⟩

/-- C66, what holds: a distributed write of records with distinct ids, in partitions none of which is empty, ends with a database that
loads and holds exactly the records, partition by partition, however the tasks were scheduled.  Missing: empty partitions, see
`C66_empty_partition_refuted`. -/
theorem C66_stored_partial {cl : Cluster κ} (hcl : cl.Lawful) {names : List Str} (hnn : names ≠ []) (hns : names.Nodup)
    {parts : List (List (κ × List (List Int)))} (hne : parts.flatten ≠ []) (hnd : (parts.flatten.map (·.1)).Nodup)
    (hw : ∀ r ∈ parts.flatten, r.2.length = names.length) (hv : Exact parts.flatten)
    (hlen : ((parts.flatten.map fun r => (r.2.map List.length).sum).sum : Nat) < 2 ^ 64) {repartition : Int}
    {cs : List (List (κ × List (List Int)))} (hcs : cs = if 0 < repartition then cl.repart repartition.toNat parts else parts) (hfull : ∀ c ∈ cs, c ≠ [])
    {maxParts : Nat} (hm : 1 ≤ maxParts) {overwrite : Bool} {dir : Dir κ} (hs : overwrite = true ∨ dir = none ∨ dir = some []) :
    (rddAsDb cl overwrite maxParts names repartition parts dir).res = .ok () ∧ ∀ keep shuffle, ∃ m,
      MDb.load keep shuffle (runFx (rddAsDb cl overwrite maxParts names repartition parts dir).fx dir) = .ok m ∧
      m.len = parts.flatten.length ∧ m.names = names ∧ m.parts.length = cs.length ∧
      ∀ shufP : List (Nat × Str) → List (Nat × Str), (∀ l, (shufP l).Perm l) → ∀ ord : Nat → List κ → List κ, (∀ i l, (ord i l).Perm l) →
        (shuffle = true → keep = true ∨ cs.length = 1 ∨ ∀ c ∈ cs, c.length = 1) →
        (m.iter shufP ord (runFx (rddAsDb cl overwrite maxParts names repartition parts dir).fx dir)).exc = none ∧
        PartByPart cs (m.iter shufP ord (runFx (rddAsDb cl overwrite maxParts names repartition parts dir).fx dir)).out ∧
        (m.iter shufP ord (runFx (rddAsDb cl overwrite maxParts names repartition parts dir).fx dir)).out.Perm parts.flatten := by
  obtain ⟨hperm, h1, dbs, q, d, hd, hq, hqne, hql, h2, g1, hpq⟩ := rdd_stored hcl hnn hne hnd hw hv hlen hcs hfull hm hs
  have hvc : ∀ c ∈ cs, Exact c := fun c hc r hr => hv r (hperm.mem_iff.1 (List.mem_flatten.2 ⟨c, hc, hr⟩))
  refine ⟨h1, fun keep shuffle => ?_⟩
  rw [h2]
  refine ⟨_, load_eq hqne g1 hpq keep shuffle, ?_, rfl, by simp [hql], ?_⟩
  · simp only [MDb.len]
    rw [counts_sum hns hd hq, hperm.length_eq]
  · intro shufP hsh ord hord hc
    have hpart : ∀ i p, q[i]? = some p → MDb.part ⟨q.map fun p => partName (Nat.clog 10 maxParts) p.2, q.map fun p => p.1.len, names,
        keep || decide (q.length = 1), shuffle, if keep || decide (q.length = 1) then q.map fun p => some p.1 else q.map fun _ => none⟩
        (some d) i (partName (Nat.clog 10 maxParts) p.2) = .ok p.1 := by
      intro i p hi
      simp only [MDb.part]
      cases hk : (keep || decide (q.length = 1)) with
      | true => simp [hi]
      | false =>
        simp only [Bool.false_eq_true, if_false, loadPart]
        rw [hpq p (List.mem_iff_getElem?.2 ⟨i, hi⟩)]
    have hexc := (iter_exc hns hvc hd hq rfl hpart hsh hord).1 (by
      intro hsf
      rcases hc hsf with h | h | h
      · left; simp [h]
      · left; simp [hql, h]
      · right
        intro c hc
        rw [h c hc])
    have hit := iter_parts hns hvc hd hq rfl (fun i p hi db hdb => by rw [hpart i p hi] at hdb; cases hdb; rfl) hsh hord hexc
    exact ⟨hexc, hit, (Spec.PartByPart.perm hit).trans hperm⟩

/-- C66: the database can also be read in batches of equal length: if every partition has a record without empty columns and no such record is
oversized, the batches hold every record without empty columns once and are within the limits. -/
theorem C66_batches_partial {cl : Cluster κ} (hcl : cl.Lawful) {names : List Str} (hnn : names ≠ []) (hns : names.Nodup)
    {parts : List (List (κ × List (List Int)))} (hne : parts.flatten ≠ []) (hnd : (parts.flatten.map (·.1)).Nodup)
    (hw : ∀ r ∈ parts.flatten, r.2.length = names.length) (hv : Exact parts.flatten)
    (hlen : ((parts.flatten.map fun r => (r.2.map List.length).sum).sum : Nat) < 2 ^ 64) {repartition : Int}
    {cs : List (List (κ × List (List Int)))} (hcs : cs = if 0 < repartition then cl.repart repartition.toNat parts else parts)
    (hfull : ∀ c ∈ cs, ∃ r ∈ c, Full r)
    {maxParts : Nat} (hm : 1 ≤ maxParts) {overwrite : Bool} {dir : Dir κ} (hs : overwrite = true ∨ dir = none ∨ dir = some []) (keep shuffle : Bool)
    {maxToks : Nat} (hfit : ∀ r ∈ parts.flatten, Full r → ¬ Oversized maxToks r) (maxSents : Option Nat) :
    ∃ m, MDb.load keep shuffle (runFx (rddAsDb cl overwrite maxParts names repartition parts dir).fx dir) = .ok m ∧
      ∀ shufP : List (Str × Option (Db κ)) → List (Str × Option (Db κ)), (∀ l, (shufP l).Perm l) →
      ∀ ord : Str → List κ → List κ, (∀ n l, (ord n l).Perm l) → ∀ shuf : Str → List (κ × Int) → List (κ × Int), (∀ n l, (shuf n l).Perm l) →
      ∀ shufB : Str → List (List κ) → List (List κ), (∀ n l, (shufB n l).Perm l) →
      ∃ bs, m.eqBatches maxToks maxSents shufP ord shuf shufB (runFx (rddAsDb cl overwrite maxParts names repartition parts dir).fx dir) = ⟨bs, none⟩ ∧
        bs.flatten.Perm (parts.flatten.filter fun r => decide (Full r)) ∧
        ∀ b ∈ bs, b ≠ [] ∧ WithinBudget maxToks b ∧ ∀ k, maxSents = some k → b.length ≤ k + 1 := by
  have hfull' : ∀ c ∈ cs, c ≠ [] := by
    rintro c hc rfl
    obtain ⟨r, hr, _⟩ := hfull _ hc
    cases hr
  obtain ⟨hperm, h1, dbs, q, d, hd, hq, hqne, hql, h2, g1, hpq⟩ := rdd_stored hcl hnn hne hnd hw hv hlen hcs hfull' hm hs
  rw [h2]
  refine ⟨_, load_eq hqne g1 hpq keep shuffle, fun shufP hsh ord hord shuf hshuf shufB hshufB => ?_⟩
  obtain ⟨bs, b1, b2, b3⟩ := eqBatches_parts (κ := κ) hns (fun r hr => hv r (hperm.mem_iff.1 hr)) hd hq hpq hfull
    (fun r hr => hfit r (hperm.mem_iff.1 hr)) maxSents keep shuffle hsh hord hshuf hshufB
  exact ⟨bs, b1, b2.trans (hperm.filter _), b3⟩

/-- an empty partition cannot be written -/
theorem create_empty (bufSize : Nat) (names : List Str) : ∃ e, Db.create bufSize names ([] : List (κ × List (List Int))) = .error e := by
  cases names with
  | nil => exact ⟨.index, rfl⟩
  | cons n ns =>
    have h : (Builder.new : Builder κ).build n = .error .assertion := rfl
    exact ⟨.assertion, by simp only [Db.create, createMany, appendRows, List.map_cons, buildAll, h]⟩

/-- C66 is false for any empty partition: the job fails, and what is left cannot be loaded. -/
theorem C66_empty_partition_refuted {cl : Cluster κ} (hcl : cl.Lawful) (names : List Str) {parts : List (List (κ × List (List Int)))} {repartition : Int}
    (he : [] ∈ if 0 < repartition then cl.repart repartition.toNat parts else parts) {maxParts : Nat} (hm : 1 ≤ maxParts) {overwrite : Bool} {dir : Dir κ}
    (hs : overwrite = true ∨ dir = none ∨ dir = some []) :
    (∃ e, (rddAsDb cl overwrite maxParts names repartition parts dir).res = .error e) ∧
    ∀ keep shuffle, MDb.load keep shuffle (runFx (rddAsDb cl overwrite maxParts names repartition parts dir).fx dir) = .error .assertion := by
  obtain ⟨e, h⟩ := create_empty (κ := κ) cl.bufSize names
  exact rddAsDb_fails hcl.sched hm hs he h

/-- C66: asking for more partitions than there are records always fails. -/
theorem C66_more_partitions_refuted {cl : Cluster κ} (hcl : cl.Lawful) (names : List Str) {parts : List (List (κ × List (List Int)))} {repartition : Int}
    (h : (parts.flatten.length : Int) < repartition) {maxParts : Nat} (hm : 1 ≤ maxParts) {overwrite : Bool} {dir : Dir κ}
    (hs : overwrite = true ∨ dir = none ∨ dir = some []) :
    (∃ e, (rddAsDb cl overwrite maxParts names repartition parts dir).res = .error e) ∧
    ∀ keep shuffle, MDb.load keep shuffle (runFx (rddAsDb cl overwrite maxParts names repartition parts dir).fx dir) = .error .assertion := by
  apply C66_empty_partition_refuted hcl names _ hm hs
  rw [if_pos (by omega)]
  obtain ⟨h1, h2⟩ := hcl.repart repartition.toNat parts (by omega)
  have h3 := h2.length_eq
  have : (cl.repart repartition.toNat parts).flatten.length < (cl.repart repartition.toNat parts).length := by omega
  revert this
  generalize cl.repart repartition.toNat parts = cs
  intro this
  by_contra hc
  have hall : ∀ c ∈ cs, 1 ≤ c.length := fun c h => by
    rcases c with _ | ⟨a, c⟩
    · exact absurd h hc
    · simp
  clear h1 h2 h3 hc
  induction cs with
  | nil => simp at this
  | cons c cs ih =>
    have := hall c (by simp)
    refine ih ?_ fun c h => hall c (by simp [h])
    simp at *
    omega

/-- C66, exactly when it holds: a distributed write of records with distinct ids succeeds if and only if no partition is empty. -/
theorem C66_iff {cl : Cluster κ} (hcl : cl.Lawful) {names : List Str} (hnn : names ≠ []) (hns : names.Nodup)
    {parts : List (List (κ × List (List Int)))} (hne : parts.flatten ≠ []) (hnd : (parts.flatten.map (·.1)).Nodup)
    (hw : ∀ r ∈ parts.flatten, r.2.length = names.length) (hv : Exact parts.flatten)
    (hlen : ((parts.flatten.map fun r => (r.2.map List.length).sum).sum : Nat) < 2 ^ 64) {repartition : Int}
    {cs : List (List (κ × List (List Int)))} (hcs : cs = if 0 < repartition then cl.repart repartition.toNat parts else parts)
    {maxParts : Nat} (hm : 1 ≤ maxParts) {overwrite : Bool} {dir : Dir κ} (hs : overwrite = true ∨ dir = none ∨ dir = some []) :
    (rddAsDb cl overwrite maxParts names repartition parts dir).res = .ok () ↔ ∀ c ∈ cs, c ≠ [] := by
  constructor
  · rintro h c hc rfl
    obtain ⟨⟨e, he⟩, _⟩ := C66_empty_partition_refuted hcl names (parts := parts) (repartition := repartition) (hcs ▸ hc) hm hs
    rw [he] at h
    cases h
  · intro hfull
    exact (C66_stored_partial hcl hnn hns hne hnd hw hv hlen hcs hfull hm hs).1

/-- C66: a directory with contents is not overwritten unless asked for. -/
theorem C66_occupied_refused (cl : Cluster κ) (names : List Str) (parts : List (List (κ × List (List Int)))) (repartition : Int) (maxParts : Nat) {dir : Dir κ}
    (h : ¬ (dir = none ∨ dir = some [])) : rddAsDb cl false maxParts names repartition parts dir = ⟨[], .error .exception⟩ := by
  have := init_refused (rmOrd := cl.rmOrd) (maxParts := maxParts) (overwrite := false) (dir := dir) (by simpa [Startable] using h)
  rw [rddAsDb, this]
  rfl

end

/-- `n` partitions, all but the last of at most one record -/
def cutUp {α : Type} : Nat → List α → List (List α)
  | 0, _ => []
  | 1, l => [l]
  | n + 2, l => l.take 1 :: cutUp (n + 1) (l.drop 1)

/-- a cluster that reverses listings, runs tasks one after the other and stops failing jobs after six steps -/
def exCluster : Cluster Nat := ⟨exEnv, List.flatten, 6, fun n parts => cutUp n parts.flatten⟩

theorem flatten_interleaved {α : Type} (ls : List (List α)) : Interleaved ls ls.flatten := by
  have : ∀ k : Nat, Interleaved (List.replicate k [] ++ ls) ls.flatten := by
    induction ls with
    | nil => intro k; exact .done (by simp)
    | cons l ls ih =>
      intro k
      induction l with
      | nil =>
        have := ih (k + 1)
        rw [List.replicate_succ', List.append_assoc] at this
        exact this
      | cons a l ih2 => exact .step ih2
  exact this 0

theorem exCluster_lawful : exCluster.Lawful := by
  refine ⟨fun l => List.reverse_perm l, flatten_interleaved, fun n parts h => ?_⟩
  have : ∀ (n : Nat) (l : List (Nat × List (List Int))), 0 < n → (cutUp n l).length = n ∧ (cutUp n l).flatten = l := by
    intro n
    induction n with
    | zero => intro l h; omega
    | succ n ih =>
      intro l _
      cases n with
      | zero => simp [cutUp]
      | succ n =>
        obtain ⟨i1, i2⟩ := ih (l.drop 1) (by omega)
        refine ⟨by rw [cutUp, List.length_cons, i1], ?_⟩
        rw [cutUp, List.flatten_cons, i2, List.take_append_drop]
  exact ⟨(this n _ h).1, by rw [show exCluster.repart n parts = cutUp n parts.flatten from rfl, (this n _ h).2]⟩

example : ∀ c ∈ exCluster.repart 3 [exMRecs], c ≠ [] := by decide
example : (match rddAsDb exCluster false 1000 [lit "x"] 0 [exMRecs.take 2, exMRecs.drop 2] none with
    | ⟨fx, res⟩ => match MDb.load false false (runFx fx none) with
      | .error _ => false
      | .ok m => decide (res = .ok ()) && decide (m.parts = [lit "part-001", lit "part-000"]) && decide (m.len = 5) &&
          decide ((m.iter id (fun _ => id) (runFx fx none)).out = [(2, [[70000]]), (7, [[0, 0]]), (1, [[3]]), (5, [[1, 2]]), (9, [[]])]) &&
          (m.iter id (fun _ => id) (runFx fx none)).exc.isNone) = true := by decide +kernel
example : (match rddAsDb exCluster false 1000 [lit "x"] 0 [exMRecs.take 2, [], exMRecs.drop 2] none with
    | ⟨fx, res⟩ => decide (res = .error .assertion) && decide (fx.length = 7) && (match MDb.load false false (runFx fx none) with
      | .error e => decide (e = .assertion)
      | .ok _ => false)) = true := by decide +kernel

/-! ## C76 -/

theorem rows_le {ord : List (Nat × Str × Str) → List (Nat × Str × Str)} (ho : ∀ l, (ord l).Perm l) {src tgt : List Str} {trunc : Bool}
    {srcLen tgtLen : Int} {srcTok tgtTok : Str → List Int} {rows : List (Nat × List Int × List Int)}
    (h : readRawBitextTok ord src tgt trunc srcLen tgtLen srcTok tgtTok = .ok rows) : rows.length ≤ src.length := by
  rw [readRawBitextTok, readRawBitext] at h
  by_cases hlen : src.length = tgt.length
  swap
  · rw [if_neg hlen] at h; simp at h
  rw [if_pos hlen] at h
  simp only at h
  generalize hraw : ord (src.zipIdx.flatMap fun s => (tgt.zipIdx.filter fun t => t.2 == s.2).map fun t => (s.2, s.1, t.1)) = raw at h
  generalize htok : ((raw.filter fun r => r.2.1 ≠ [] && r.2.2 ≠ []).map fun r => (r.1, srcTok r.2.1, tgtTok r.2.2)).filter
      (fun r => r.2.1.length ≠ 0 && r.2.2.length ≠ 0) = tok at h
  obtain ⟨h1, h2⟩ := tok_rows ho src tgt srcTok tgtTok raw hraw.symm tok htok.symm
  have hl : tok.length ≤ src.length := by
    have : (tok.map (·.1)).Subperm (List.range src.length) := by
      apply List.subperm_of_subset h1
      intro i hi
      obtain ⟨⟨j, x, y⟩, hr, rfl⟩ := List.mem_map.1 hi
      obtain ⟨s, t, hs, _⟩ := (h2 _ _ _).1 hr
      rw [List.mem_range]
      exact (List.getElem?_eq_some_iff.1 hs).1
    simpa using this.length_le
  have hr : rows = if trunc then tok.map fun r => (r.1, sliceTo r.2.1 srcLen, sliceTo r.2.2 tgtLen)
      else tok.filter fun r => decide ((r.2.1.length : Int) < srcLen) && decide ((r.2.2.length : Int) < tgtLen) := by
    revert h
    generalize (if trunc then tok.map fun r => (r.1, sliceTo r.2.1 srcLen, sliceTo r.2.2 tgtLen)
      else tok.filter fun r => decide ((r.2.1.length : Int) < srcLen) && decide ((r.2.2.length : Int) < tgtLen)) = l
    intro h
    cases l with
    | nil => simp at h
    | cons a l => simp at h; exact h.symm
  rw [hr]
  split
  · simpa using hl
  · exact le_trans (List.length_filter_le _ _) hl

/-- the columns of a record for the encodings `x` and `y`: cut to `n` and `k` ids, or, without `truncate`, whole if both are shorter than that -/
def Spec.Columns (cut : Bool) (n k : Nat) (x y : List Int) (cols : List (List Int)) : Prop :=
  match cut with
  | true => cols = [x.take n, y.take k]
  | false => cols = [x, y] ∧ x.length < n ∧ y.length < k

theorem Spec.Columns.two {cut : Bool} {n k : Nat} {x y : List Int} {c : List (List Int)} (h : Columns cut n k x y c) : ∃ x' y', c = [x', y'] := by
  cases cut with
  | true => exact ⟨_, _, h⟩
  | false => exact ⟨_, _, h.1⟩

theorem Spec.Columns.sub {cut : Bool} {n k : Nat} {x y x' y' : List Int} (h : Columns cut n k x y [x', y']) :
    x' ⊆ x ∧ y' ⊆ y ∧ x'.length ≤ n ∧ y'.length ≤ k := by
  cases cut with
  | true =>
    simp only [Spec.Columns, List.cons.injEq, and_true] at h
    obtain ⟨rfl, rfl⟩ := h
    exact ⟨List.take_subset _ _, List.take_subset _ _, by simp, by simp⟩
  | false =>
    simp only [Spec.Columns, List.cons.injEq, and_true] at h
    obtain ⟨⟨rfl, rfl⟩, h1, h2⟩ := h
    exact ⟨List.Subset.refl _, List.Subset.refl _, by omega, by omega⟩

theorem Spec.Columns.full {cut : Bool} {n k : Nat} (hn : 1 ≤ n) (hk : 1 ≤ k) {x y a b : List Int} (hx : x ≠ []) (hy : y ≠ [])
    (h : Columns cut n k x y [a, b]) : a ≠ [] ∧ b ≠ [] := by
  cases cut with
  | true =>
    have h' : [a, b] = [x.take n, y.take k] := h
    simp only [List.cons.injEq, and_true] at h'
    obtain ⟨rfl, rfl⟩ := h'
    simp only [ne_eq, List.take_eq_nil_iff, hx, hy, or_false]
    omega
  | false =>
    have h' : [a, b] = [x, y] := h.1
    simp only [List.cons.injEq, and_true] at h'
    obtain ⟨rfl, rfl⟩ := h'
    exact ⟨hx, hy⟩

theorem C63_any {ord : List (Nat × Str × Str) → List (Nat × Str × Str)} (ho : ∀ l, (ord l).Perm l) {src tgt : List Str}
    (hlen : src.length = tgt.length) (cut : Bool) (srcLen tgtLen : Nat) (srcTok tgtTok : Str → List Int)
    (hne : ∃ i x y c, PairAt src tgt srcTok tgtTok i x y ∧ Columns cut srcLen tgtLen x y c) :
    ∃ rows, readRawBitextTok ord src tgt cut srcLen tgtLen srcTok tgtTok = .ok rows ∧ (rows.map (·.1)).Nodup ∧
      (∀ i x y, (i, x, y) ∈ rows ↔ ∃ x' y', PairAt src tgt srcTok tgtTok i x' y' ∧ Columns cut srcLen tgtLen x' y' [x, y]) ∧
      ∀ r ∈ rows, r.2.1.length ≤ srcLen ∧ r.2.2.length ≤ tgtLen := by
  have hlast : ∀ {rows : List (Nat × List Int × List Int)}, (∀ i x y, (i, x, y) ∈ rows ↔ ∃ x' y', PairAt src tgt srcTok tgtTok i x' y' ∧
      Columns cut srcLen tgtLen x' y' [x, y]) → ∀ r ∈ rows, r.2.1.length ≤ srcLen ∧ r.2.2.length ≤ tgtLen := by
    rintro rows h ⟨i, x, y⟩ hr
    obtain ⟨_, _, _, hc⟩ := (h i x y).1 hr
    exact hc.sub.2.2
  obtain ⟨i, x, y, c, h, hc⟩ := hne
  cases cut with
  | true =>
    obtain ⟨rows, h1, h2, h3, _⟩ := C63_truncate ho hlen srcLen tgtLen srcTok tgtTok ⟨i, x, y, h⟩
    have h3' : ∀ i x y, (i, x, y) ∈ rows ↔ ∃ x' y', PairAt src tgt srcTok tgtTok i x' y' ∧ Columns true srcLen tgtLen x' y' [x, y] := by
      intro i x y
      rw [h3]
      simp [Spec.Columns]
    exact ⟨rows, h1, h2, h3', hlast h3'⟩
  | false =>
    obtain ⟨rows, h1, h2, h3⟩ := C63_filter_partial ho hlen srcLen tgtLen srcTok tgtTok ⟨i, x, y, h, by have := hc.2.1; omega, by have := hc.2.2; omega⟩
    have h3' : ∀ i x y, (i, x, y) ∈ rows ↔ ∃ x' y', PairAt src tgt srcTok tgtTok i x' y' ∧ Columns false srcLen tgtLen x' y' [x, y] := by
      intro i x y
      rw [h3]
      constructor
      · rintro ⟨a, b, c⟩; exact ⟨x, y, a, rfl, by omega, by omega⟩
      · rintro ⟨x', y', a, b, c, d⟩
        simp only [List.cons.injEq, and_true] at b
        obtain ⟨rfl, rfl⟩ := b
        exact ⟨a, by omega, by omega⟩
    exact ⟨rows, h1, h2, h3', hlast h3'⟩

/-- C76: `nlcodec-bitextdb` stores exactly the encodings of the pairs of lines, each under its line number, cut to the limits with truncation, and
without it those shorter than the limits (C63); if there is such a pair, and no partition is empty (C66). -/
theorem C76_bitext_partial {cl : Cluster Nat} (hcl : cl.Lawful) {ord : List (Nat × Str × Str) → List (Nat × Str × Str)} (ho : ∀ l, (ord l).Perm l)
    {part : List (Nat × List (List Int)) → List (List (Nat × List (List Int)))} (hpart : ∀ l, (part l).flatten.Perm l) {src tgt : List Str}
    (hlen : src.length = tgt.length) {srcLen tgtLen : Nat} {srcTok tgtTok : Str → List Int} {cut : Bool}
    (hne : ∃ i x y c, PairAt src tgt srcTok tgtTok i x y ∧ Columns cut srcLen tgtLen x y c)
    (hvs : ∀ s ∈ src, ∀ v ∈ srcTok s, v.natAbs ≤ 2 ^ 53) (hvt : ∀ t ∈ tgt, ∀ v ∈ tgtTok t, v.natAbs ≤ 2 ^ 53)
    (hsize : src.length * (srcLen + tgtLen) < 2 ^ 64) {numParts : Int}
    (hfull : ∀ rows, readRawBitextTok ord src tgt cut srcLen tgtLen srcTok tgtTok = .ok rows → ∀ ps, ps = part (rows.map fun r => (r.1, [r.2.1, r.2.2])) →
      ∀ c ∈ (if 0 < numParts then cl.repart numParts.toNat ps else ps), c ≠ [])
    {dir : Dir Nat} (hdir : dir = none ∨ dir = some []) :
    (bitextMain cl ord part src tgt cut srcLen tgtLen srcTok tgtTok numParts dir).res = .ok () ∧
    ∃ recs : List (Nat × List (List Int)), (recs.map (·.1)).Nodup ∧
      (∀ i cols, (i, cols) ∈ recs ↔ ∃ x y, PairAt src tgt srcTok tgtTok i x y ∧ Columns cut srcLen tgtLen x y cols) ∧ ∀ keep, ∃ m,
      MDb.load keep false (runFx (bitextMain cl ord part src tgt cut srcLen tgtLen srcTok tgtTok numParts dir).fx dir) = .ok m ∧
      m.names = [lit "x", lit "y"] ∧ m.len = recs.length ∧
      (∀ ids : Nat → List Nat → List Nat, (∀ i l, (ids i l).Perm l) → ∃ out,
        m.iter id ids (runFx (bitextMain cl ord part src tgt cut srcLen tgtLen srcTok tgtTok numParts dir).fx dir) = ⟨out, none⟩ ∧ out.Perm recs) ∧
      (1 ≤ srcLen → 1 ≤ tgtLen → ∀ maxToks : Nat, srcLen ≤ maxToks → tgtLen ≤ maxToks → ∀ maxSents : Option Nat,
        ∀ shufP : List (Str × Option (Db Nat)) → List (Str × Option (Db Nat)), (∀ l, (shufP l).Perm l) →
        ∀ ids : Str → List Nat → List Nat, (∀ n l, (ids n l).Perm l) → ∀ shuf : Str → List (Nat × Int) → List (Nat × Int), (∀ n l, (shuf n l).Perm l) →
        ∀ shufB : Str → List (List Nat) → List (List Nat), (∀ n l, (shufB n l).Perm l) → ∃ bs,
        m.eqBatches maxToks maxSents shufP ids shuf shufB
          (runFx (bitextMain cl ord part src tgt cut srcLen tgtLen srcTok tgtTok numParts dir).fx dir) = ⟨bs, none⟩ ∧ bs.flatten.Perm recs ∧
        ∀ b ∈ bs, b ≠ [] ∧ WithinBudget maxToks b ∧ ∀ k, maxSents = some k → b.length ≤ k + 1) := by
  obtain ⟨rows, h1, h2, h3, h4⟩ := C63_any ho hlen cut srcLen tgtLen srcTok tgtTok hne
  have hb : ∀ dir, bitextMain cl ord part src tgt cut srcLen tgtLen srcTok tgtTok numParts dir =
      rddAsDb cl false 1000 [lit "x", lit "y"] numParts (part (rows.map fun r => (r.1, [r.2.1, r.2.2]))) dir := fun dir => by
    rw [bitextMain, h1]
  rw [hb]
  have hp := hpart (rows.map fun r => (r.1, [r.2.1, r.2.2]))
  have hids : ((rows.map fun r => (r.1, [r.2.1, r.2.2])).map (·.1)).Nodup := by rw [List.map_map]; exact h2
  have hrl : rows.length ≤ src.length := rows_le ho h1
  have hrne : rows ≠ [] := by
    rintro rfl
    obtain ⟨i, x, y, c, h, hc⟩ := hne
    obtain ⟨x', y', rfl⟩ := hc.two
    simpa using (h3 i _ _).2 ⟨x, y, h, hc⟩
  have hfl : (part (rows.map fun r => (r.1, [r.2.1, r.2.2]))).flatten ≠ [] := by
    intro h
    rw [h] at hp
    exact hrne (by simpa using hp)
  have hmem : ∀ r ∈ (part (rows.map fun r => (r.1, [r.2.1, r.2.2]))).flatten, ∃ x y, (r.1, x, y) ∈ rows ∧ r.2 = [x, y] := by
    intro r hr
    rw [hp.mem_iff] at hr
    obtain ⟨⟨i, x, y⟩, h, rfl⟩ := List.mem_map.1 hr
    exact ⟨x, y, h, rfl⟩
  have hw : ∀ r ∈ (part (rows.map fun r => (r.1, [r.2.1, r.2.2]))).flatten, r.2.length = [lit "x", lit "y"].length := fun r hr => by
    obtain ⟨x, y, _, h⟩ := hmem r hr; rw [h]; rfl
  have hv : Exact (part (rows.map fun r => (r.1, [r.2.1, r.2.2]))).flatten := fun r hr c hc v hv => by
    obtain ⟨x, y, h, e⟩ := hmem r hr
    obtain ⟨x', y', ⟨s, t, g1, g2, _, _, rfl, rfl, _⟩, hcol⟩ := (h3 _ _ _).1 h
    obtain ⟨p1, p2, _⟩ := hcol.sub
    rw [e] at hc
    simp only [List.mem_cons, List.not_mem_nil, or_false] at hc
    rcases hc with rfl | rfl
    · exact hvs s (List.mem_of_getElem? g1) v (p1 hv)
    · exact hvt t (List.mem_of_getElem? g2) v (p2 hv)
  have hsz : (((part (rows.map fun r => (r.1, [r.2.1, r.2.2]))).flatten.map fun r => (r.2.map List.length).sum).sum : Nat) < 2 ^ 64 := by
    refine lt_of_le_of_lt ?_ hsize
    rw [(hp.map _).sum_nat, List.map_map]
    refine le_trans ?_ (Nat.mul_le_mul_right _ hrl)
    clear h1 h2 h3 hb hp hids hrl hrne hfl hmem hw hv
    induction rows with
    | nil => simp
    | cons r rows ih =>
      have i1 := ih fun r hr => h4 r (by simp [hr])
      have i2 := h4 r (by simp)
      simp only [List.map_cons, List.sum_cons, Function.comp_apply, List.length_cons, List.map_nil, List.sum_nil, Nat.succ_mul] at i1 ⊢
      omega
  have hfull' := hfull _ h1 _ rfl
  obtain ⟨r1, r2⟩ := C66_stored_partial hcl (names := [lit "x", lit "y"]) (by decide) (by decide) hfl ((hp.map _).nodup_iff.2 hids)
    hw hv hsz (repartition := numParts) rfl hfull' (maxParts := 1000) (by omega) (overwrite := false) (Or.inr hdir)
  refine ⟨r1, rows.map fun r => (r.1, [r.2.1, r.2.2]), hids, fun i cols => ?_, fun keep => ?_⟩
  · rw [List.mem_map]
    constructor
    · rintro ⟨⟨j, x, y⟩, hr, h⟩
      cases h
      obtain ⟨x', y', h, hc⟩ := (h3 _ _ _).1 hr
      exact ⟨x', y', h, hc⟩
    · rintro ⟨x, y, h, hc⟩
      obtain ⟨x', y', rfl⟩ := hc.two
      exact ⟨(i, _, _), (h3 _ _ _).2 ⟨x, y, h, hc⟩, rfl⟩
  · obtain ⟨m, m1, m2, m3, _, m4⟩ := r2 keep false
    refine ⟨m, m1, m3, by rw [m2, hp.length_eq], fun ids hids' => ?_, ?_⟩
    · obtain ⟨e1, _, e3⟩ := m4 id (fun l => List.Perm.refl _) ids hids' (by simp)
      exact ⟨_, by rw [← e1], e3.trans hp⟩
    · intro hs1 ht1 maxToks hs2 ht2 maxSents shufP hsh ids hids' shuf hshuf shufB hshufB
      have hF : ∀ r ∈ (part (rows.map fun r => (r.1, [r.2.1, r.2.2]))).flatten, Full r ∧ ¬ Oversized maxToks r := by
        intro r hr
        obtain ⟨x, y, h, e⟩ := hmem r hr
        obtain ⟨x', y', ⟨s, t, _, _, _, _, _, _, n1, n2⟩, hcol⟩ := (h3 _ _ _).1 h
        have hle := hcol.sub.2.2
        obtain ⟨f1, f2⟩ := hcol.full hs1 ht1 n1 n2
        constructor
        · intro c hc
          rw [e] at hc
          simp only [List.mem_cons, List.not_mem_nil, or_false] at hc
          rcases hc with rfl | rfl <;> assumption
        · rintro ⟨c, hc, hlt⟩
          rw [e] at hc
          simp only [List.mem_cons, List.not_mem_nil, or_false] at hc
          rcases hc with rfl | rfl <;> omega
      have hperm : (if 0 < numParts then cl.repart numParts.toNat (part (rows.map fun r => (r.1, [r.2.1, r.2.2]))) else part (rows.map fun r => (r.1, [r.2.1, r.2.2]))).flatten.Perm
          (part (rows.map fun r => (r.1, [r.2.1, r.2.2]))).flatten := by
        split
        · exact (hcl.repart _ _ (by omega)).2
        · exact List.Perm.refl _
      obtain ⟨m', k1, k2⟩ := C66_batches_partial hcl (names := [lit "x", lit "y"]) (by decide) (by decide) hfl ((hp.map _).nodup_iff.2 hids)
        hw hv hsz (repartition := numParts) rfl (fun c hc => by
          obtain ⟨r, l, rfl⟩ := List.exists_cons_of_ne_nil (hfull' c hc)
          exact ⟨r, by simp, (hF r (hperm.mem_iff.1 (List.mem_flatten.2 ⟨_, hc, by simp⟩))).1⟩)
        (maxParts := 1000) (by omega) (overwrite := false) (Or.inr hdir) keep false (fun r hr _ => (hF r hr).2) maxSents
      rw [m1] at k1
      cases k1
      obtain ⟨bs, b1, b2, b3⟩ := k2 shufP hsh ids hids' shuf hshuf shufB hshufB
      refine ⟨bs, b1, ?_, b3⟩
      rw [List.filter_eq_self.2 (fun r hr => by simpa using (hF r hr).1)] at b2
      exact b2.trans hp

/-- C76 is false for more parts than pairs: nothing is stored. -/
theorem C76_more_parts_refuted {cl : Cluster Nat} (hcl : cl.Lawful) {ord : List (Nat × Str × Str) → List (Nat × Str × Str)} (ho : ∀ l, (ord l).Perm l)
    {part : List (Nat × List (List Int)) → List (List (Nat × List (List Int)))} (hpart : ∀ l, (part l).flatten.Perm l) {src tgt : List Str} {trunc : Bool}
    {srcLen tgtLen : Int} {srcTok tgtTok : Str → List Int} {numParts : Int} (hn : (src.length : Int) < numParts)
    {dir : Dir Nat} (hdir : dir = none ∨ dir = some []) :
    (∃ e, (bitextMain cl ord part src tgt trunc srcLen tgtLen srcTok tgtTok numParts dir).res = .error e) ∧
    ∀ keep shuffle, MDb.load keep shuffle (runFx (bitextMain cl ord part src tgt trunc srcLen tgtLen srcTok tgtTok numParts dir).fx dir) = .error .assertion := by
  cases h : readRawBitextTok ord src tgt trunc srcLen tgtLen srcTok tgtTok with
  | error e =>
    have hb : bitextMain cl ord part src tgt trunc srcLen tgtLen srcTok tgtTok numParts dir = ⟨[], .error e⟩ := by rw [bitextMain, h]
    rw [hb]
    refine ⟨⟨e, rfl⟩, fun keep shuffle => ?_⟩
    rcases hdir with rfl | rfl <;> rfl
  | ok rows =>
    have hb : bitextMain cl ord part src tgt trunc srcLen tgtLen srcTok tgtTok numParts dir =
        rddAsDb cl false 1000 [lit "x", lit "y"] numParts (part (rows.map fun r => (r.1, [r.2.1, r.2.2]))) dir := by rw [bitextMain, h]
    rw [hb]
    refine C66_more_partitions_refuted hcl _ ?_ (by omega) (Or.inr hdir)
    have h1 := (hpart (rows.map fun r => (r.1, [r.2.1, r.2.2]))).length_eq
    have h2 := rows_le ho h
    rw [List.length_map] at h1
    omega

example : (match bitextMain exCluster List.reverse (fun l => [l]) [lit "abc", [], lit "d"] [lit "xy", lit "z", lit "z"] true 2 2 exTok exTok 2 none with
    | ⟨fx, res⟩ => match MDb.load false false (runFx fx none) with
      | .error _ => false
      | .ok m => decide (res = .ok ()) && decide (m.parts = [lit "part-001", lit "part-000"]) && decide (m.len = 2) &&
          decide ((m.iter id (fun _ => id) (runFx fx none)).out = [(0, [[97, 98], [120, 121]]), (2, [[100], [122]])])) = true := by decide +kernel

end Verif
