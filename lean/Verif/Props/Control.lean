import Verif.Props.BpeLearn
import Verif.Props.Byte
/-!
# Control ids in encoded text (C72), duplicate names (C73)
-/

namespace Verif
open Spec

/-- the control tokens that frame sequences: their ids and names -/
def Spec.controlTokens : List (Nat × Str) := [(0, lit "<pad>"), (2, lit "<s>"), (3, lit "</s>"), (4, lit "<cls>")]

theorem controlTokens_reserved {j : Nat} {n : Str} (h : (j, n) ∈ controlTokens) : j < 6 ∧ j ≠ 1 ∧ reservedNames[j]? = some n ∧ 3 ≤ n.length := by
  simp only [controlTokens, List.mem_cons, Prod.mk.injEq, List.not_mem_nil, or_false] at h
  rcases h with ⟨rfl, rfl⟩ | ⟨rfl, rfl⟩ | ⟨rfl, rfl⟩ | ⟨rfl, rfl⟩ <;> decide

/-- a piece whose id is a control id is the control token itself -/
theorem idOf_control {s : Scheme} (hk : s.kind ≠ .clasz) (hv : validateReserved s.table = .ok ()) {j : Nat} {n p : Str}
    (hj : (j, n) ∈ controlTokens) (h : s.idOf p = (j : Int)) : p = n := by
  obtain ⟨h6, h1, hn, _⟩ := controlTokens_reserved hj
  obtain ⟨t, ht, hname⟩ := validateReserved_ok hv j h6
  have e : t.name = n := by
    rw [hname]
    exact (List.getElem?_eq_some_iff.1 hn).2
  simp only [Scheme.idOf] at h
  cases hx : s.idxToStr.idxOf? p with
  | none =>
    simp only [hx, Scheme.unk, hk, if_false, UNK] at h
    exact absurd (by exact_mod_cast h.symm) h1
  | some i =>
    simp only [hx] at h
    have : i = j := by exact_mod_cast h
    subst this
    have := idxOf?_some_get hx
    simp only [Scheme.idxToStr, List.getElem?_map, ht, Option.map_some, Option.some.injEq] at this
    rw [← this, e]

theorem idOf_reserved {s : Scheme} (hn : (names s.table).Nodup) (hv : validateReserved s.table = .ok ()) {j : Nat} {n : Str}
    (hj : (j, n) ∈ controlTokens) : s.idOf n = (j : Int) := by
  obtain ⟨h6, h1, hr, _⟩ := controlTokens_reserved hj
  obtain ⟨t, ht, hname⟩ := validateReserved_ok hv j h6
  have e : t.name = n := by
    rw [hname]
    exact (List.getElem?_eq_some_iff.1 hr).2
  have : s.idxToStr.idxOf? n = some j := idxOf?_eq_of_nodup hn (by simp [names, ht, e])
  simp [Scheme.idOf, this]

/-! ## C72 -/

/-- C72, word scheme, as far as it holds: a control id is produced exactly for a word spelled like the control token.
Missing: such words are ordinary text, see `C72_word_refuted`. -/
theorem C72_word_partial {tbl : List Ty} {s : Scheme} (h : Scheme.make .word tbl = .ok s) {line : Str} {ws : List Str} (hw : Tokens line ws)
    {j : Nat} {n : Str} (hj : (j, n) ∈ controlTokens) : ∃ ids, s.encode line = .ok ids ∧ ((j : Int) ∈ ids ↔ n ∈ ws) := by
  obtain ⟨h1, h2, h3, h4, h5⟩ := make_word_ok h
  subst h1
  refine ⟨(split line).map s.idOf, ?_, ?_⟩
  · simp only [Scheme.encode, Scheme.encodeStr, h2]
    exact idsOf_eq (by rw [h2]; decide) h3 _
  · rw [split_of_tokens hw]
    constructor
    · intro hm
      obtain ⟨p, hp, e⟩ := List.mem_map.1 hm
      rw [← idOf_control (by rw [h2]; decide) h5 hj e]; exact hp
    · intro hm
      exact List.mem_map.2 ⟨n, hm, idOf_reserved h4 h5 hj⟩

/-- C72, char scheme: control ids never occur. -/
theorem C72_char {tbl : List Ty} {s : Scheme} (h : Scheme.make .char tbl = .ok s) (line : Str) :
    ∃ ids, s.encode line = .ok ids ∧ ∀ j n, (j, n) ∈ controlTokens → (j : Int) ∉ ids := by
  obtain ⟨h1, h2, h3, h4, h5⟩ := make_char_ok h
  subst h1
  refine ⟨((join [SP] (split line)).map fun c => [c]).map s.idOf, ?_, ?_⟩
  · simp only [Scheme.encode, Scheme.encodeStr, h2]
    exact idsOf_eq (by rw [h2]; decide) h3 _
  · intro j n hj hm
    obtain ⟨p, hp, e⟩ := List.mem_map.1 hm
    obtain ⟨c, _, rfl⟩ := List.mem_map.1 hp
    have hpn := idOf_control (by rw [h2]; decide) h5 hj e
    have := (controlTokens_reserved hj).2.2.2
    rw [← hpn] at this
    simp at this

theorem greedy_infix {ns : List Str} {s : Str} {out : List (Option Str)} (h : Greedy ns s out) : ∀ w, some w ∈ out → w <:+: s := by
  induction h with
  | nil => simp
  | @tok w r out _ _ _ _ ih =>
    intro v hv
    rcases List.mem_cons.1 hv with hv | hv
    · cases hv; exact (List.prefix_append w r).isInfix
    · exact (ih v hv).trans (List.suffix_append w r).isInfix
  | @unk c r out _ _ ih =>
    intro v hv
    rcases List.mem_cons.1 hv with hv | hv
    · cases hv
    · exact (ih v hv).trans (List.suffix_cons c r).isInfix

/-- C72, bpe scheme, as far as it holds: control ids occur only if the control token is spelled out in the (normalised) text.
Missing: text that spells it out, see `C72_bpe_refuted`. -/
theorem C72_bpe_partial {tbl : List Ty} {s : Scheme} (h : Scheme.make .bpe tbl = .ok s) (hi : Indexed tbl) {line : Str} {ws : List Str}
    (hw : Tokens line ws) : ∃ ids, s.encode line = .ok ids ∧
      ∀ j n, (j, n) ∈ controlTokens → (j : Int) ∈ ids → n <:+: List.intercalate [SP] ws ++ [SP] := by
  obtain ⟨h1, h2, h3, h4, h5, h6⟩ := make_bpe_ok h
  obtain ⟨out, hg, _, hen⟩ := bpe_encode_spec h hi line
  refine ⟨_, hen, ?_⟩
  intro j n hj hm
  obtain ⟨o, ho, e⟩ := List.mem_map.1 hm
  have hp := idOf_control (by rw [h2]; decide) (by rw [h1]; exact h4) hj e
  cases o with
  | none =>
    exfalso
    have hne : ∀ p ∈ controlTokens, unkName ≠ p.2 := by decide
    exact hne _ hj hp
  | some w =>
    simp only [Option.getD_some] at hp
    subst hp
    have := greedy_infix hg w ho
    rw [bpeText, split_strip, split_of_tokens hw, join_eq_intercalate] at this
    exact this

/-- C72, byte scheme: control ids (256 and 257) never occur. -/
theorem C72_byte {s : Scheme} (h : Scheme.make .byte [] = .ok s) (line : Str) {ids : List Int} (he : s.encode line = .ok ids) :
    (256 : Int) ∉ ids ∧ (257 : Int) ∉ ids := by
  have := C09_byte_no_reserved_ids h line he
  constructor
  · intro hm; have := this _ hm; omega
  · intro hm; have := this _ hm; omega

/-- the hypotheses are met, and a control id is produced for "</s>" but not for "s>" -/
example : (withScheme .word (exTable Level.word ["a", "b"]) fun s => s.encode (lit "s> </s> a")) = .ok [1, 3, 6] := by decide
example : Tokens (lit "s> </s> a") [lit "s>", lit "</s>", lit "a"] := by
  have h : split (lit "s> </s> a") = [lit "s>", lit "</s>", lit "a"] := by decide
  exact h ▸ tokens_split _
example : (withScheme .char (exTable Level.char ["<", "s", ">"]) fun s => s.encode (lit "<s> s")) = .ok [6, 7, 8, 5, 7] := by decide
example : (withScheme .bpe (exTable Level.char ["<", "s", ">"]) fun s => s.encode (lit "<s s>")) = .ok [6, 7, 5, 7, 8, 5] := by decide +kernel
example : (withScheme .byte [] fun s => s.encode (lit "<s>")) = .ok [60, 115, 62] := by decide +kernel

/-- C72 is false for the word scheme: the text "a <s> b" encodes to a begin-of-sequence id in the middle. -/
theorem C72_word_refuted : ∃ (tbl : List Ty) (s : Scheme), Scheme.make .word tbl = .ok s ∧ s.encode (lit "a <s> b") = .ok [6, 2, 7] := by
  have h : (withScheme .word (exTable Level.word ["a", "b"]) fun s => s.encode (lit "a <s> b")) = .ok [6, 2, 7] := by decide
  simp only [withScheme] at h
  cases h1 : Scheme.make .word (exTable Level.word ["a", "b"]) with
  | error e => simp [h1] at h
  | ok s => simp only [h1] at h; exact ⟨_, s, h1, h⟩

/-- C72 is false for the bpe scheme, even inside of a word: "a</s>b" contains an end-of-sequence id. -/
theorem C72_bpe_refuted : ∃ (tbl : List Ty) (s : Scheme), Scheme.make .bpe tbl = .ok s ∧ s.encode (lit "a</s>b") = .ok [6, 3, 7, 5] := by
  have h : (withScheme .bpe (exTable Level.char ["a", "b", "<", "/", "s", ">"]) fun s => s.encode (lit "a</s>b")) = .ok [6, 3, 7, 5] := by
    decide +kernel
  simp only [withScheme] at h
  cases h1 : Scheme.make .bpe (exTable Level.char ["a", "b", "<", "/", "s", ">"]) with
  | error e => simp [h1] at h
  | ok s => simp only [h1] at h; exact ⟨_, s, h1, h⟩

/-! ## C73 -/

theorem Merged.count_zero {p : Nat × Nat} {m : Nat} {C C1 : Corpus} (h : Merged p m C C1) : pairCount C1 p = 0 := by
  simp only [Merged] at h
  induction h with
  | nil => rfl
  | @cons s t C C1 hst hr ih =>
    simp only [pairCount, List.map_cons, List.sum_cons] at ih ⊢
    rw [hst.2.2, ih]; simp

/-- the pairs merged in a run are pairwise different -/
theorem Run.pairs {minEv level : Int} {C C' : Corpus} {v v' : List Ty} {k : Nat} (h : Run minEv level C v k C' v')
    (hs : ∀ s ∈ C, s.1 ≠ [] ∧ 0 < s.2) (hc : ∀ s ∈ C, ∀ c ∈ s.1, c < v.length) :
    ∃ (new : List Ty) (ps : List (Nat × Nat)), v' = v ++ new ∧ ps.length = new.length ∧ ps.Nodup ∧
      (∀ q ∈ ps, q.1 < v.length → q.2 < v.length → 0 < pairCount C q) ∧
      ∀ (i : Nat) (t : Ty), new[i]? = some t → ∃ q ta tb, ps[i]? = some q ∧ v'[q.1]? = some ta ∧ v'[q.2]? = some tb ∧ t.kids = [ta, tb] := by
  induction h with
  | refl => exact ⟨[], [], by simp, rfl, List.nodup_nil, by simp, by simp⟩
  | @step C C1 C' v v' n p ta tb hb hm ha hb2 hmer hr ih =>
    obtain ⟨h1, h2⟩ := hmer.wf hs hc
    obtain ⟨new, ps, e, hl, hnd, hq, hn⟩ := ih h1 (by simpa using h2)
    have hla := (List.getElem?_eq_some_iff.1 ha).1
    have hlb := (List.getElem?_eq_some_iff.1 hb2).1
    refine ⟨_ :: new, p :: ps, by rw [e, List.append_assoc]; rfl, by simp [hl], ?_, ?_, ?_⟩
    · refine List.nodup_cons.2 ⟨fun hm => ?_, hnd⟩
      have := hq p hm (by simp; omega) (by simp; omega)
      rw [Merged.count_zero hmer] at this
      exact absurd this (by decide)
    · intro q hqm g1 g2
      rcases List.mem_cons.1 hqm with rfl | hqm
      · exact hb.1
      · have := hq q hqm (by simp; omega) (by simp; omega)
        exact lt_of_lt_of_le this (Rel.count_le (Rel.of_merged hmer) (fun s hm => le_of_lt (hs s hm).2) (by omega) (by omega))
    · intro i t ht
      cases i with
      | zero =>
        simp only [List.getElem?_cons_zero, Option.some.injEq] at ht
        subst ht
        refine ⟨p, ta, tb, rfl, ?_, ?_, rfl⟩
        · rw [e, List.append_assoc, List.getElem?_append_left hla]; exact ha
        · rw [e, List.append_assoc, List.getElem?_append_left hlb]; exact hb2
      | succ i =>
        simp only [List.getElem?_cons_succ] at ht ⊢
        exact hn i t ht

/-- C73, as far as it holds: types that were not made by merging have distinct names, and no pair of types is merged twice.
Missing: a merge may spell the name of an existing type, see `C73_reserved_name_refuted`. -/
theorem C73_distinct_partial {ord : Nat → List Nat → List Nat} (hord : ∀ i l, (ord i l).Perm l) {A : Acc} {data : List Str}
    {vs mf : Int} {cov : Option A.F} {minEv : Int} {vocab : List Ty} (hv : ∀ c, cov = some c → A.valid c = true)
    (h : bpeLearn ord A data vs mf cov minEv = .ok vocab) {i j : Nat} {t u : Ty} (hi : vocab[i]? = some t) (hj : vocab[j]? = some u)
    (hij : i ≠ j) : (t.kids = [] → u.kids = [] → t.name ≠ u.name) ∧ (t.kids ≠ [] → t.kids ≠ u.kids) := by
  have hidx := (C22_text hord hv h).1
  obtain ⟨t1, t2, t3⟩ := termFrequencies_word data
  obtain ⟨cf, v0, C, c1, c2, c3, c4, c5, c6, _, c7⟩ := bpeLearnTf_cases (ord := ord) t1 t2 t3 (lc := (termFrequencies .word data).2)
    (vs := vs) (mf := mf) (minEv := minEv) hv
  simp only [bpeLearn] at h
  rw [c7] at h
  split at h
  · obtain ⟨k, C', hk, hrun, hstop⟩ := C20_merges hord c5 c3.indexed c3.distinct c6 h
    obtain ⟨new, ps, e, hl, hnd, _, hn⟩ := Run.pairs hrun c5 c6
    have hold : ∀ (x : Ty) (n : Nat), vocab[n]? = some x → n < v0.length → x.kids = [] := by
      intro x n hx hlt
      rw [e, List.getElem?_append_left hlt] at hx
      have hm := List.mem_of_getElem? hx
      rw [← List.take_append_drop 6 v0] at hm
      rcases List.mem_append.1 hm with hm | hm
      · have h1 : (x.name, x.level, x.kids) ∈ (v0.take 6).map (fun t => (t.name, t.level, t.kids)) := List.mem_map.2 ⟨x, hm, rfl⟩
        rw [c3.reserved] at h1
        have h2 : ∀ y ∈ ([(lit "<pad>", -1, []), (lit "<unk>", -1, []), (lit "<s>", -1, []), (lit "</s>", -1, []),
          (lit "<cls>", -1, []), ([0x2581], -1, [])] : List (Str × Int × List Ty)), y.2.2 = [] := by decide
        exact h2 _ h1
      · exact (c3.counted x hm).2.2
    have hnew : ∀ (x : Ty) (n : Nat), vocab[n]? = some x → ¬ n < v0.length → ∃ q ta tb, ps[n - v0.length]? = some q ∧
        vocab[q.1]? = some ta ∧ vocab[q.2]? = some tb ∧ x.kids = [ta, tb] := by
      intro x n hx hlt
      have : new[n - v0.length]? = some x := by
        rw [e, List.getElem?_append_right (by omega)] at hx; exact hx
      exact hn _ _ this
    constructor
    · intro k1 k2 hname
      have li : i < v0.length := by
        by_contra hc
        obtain ⟨_, _, _, _, _, _, hk⟩ := hnew t i hi hc
        rw [k1] at hk; simp at hk
      have lj : j < v0.length := by
        by_contra hc
        obtain ⟨_, _, _, _, _, _, hk⟩ := hnew u j hj hc
        rw [k2] at hk; simp at hk
      rw [e, List.getElem?_append_left li] at hi
      rw [e, List.getElem?_append_left lj] at hj
      apply hij
      have hni : (names v0)[i]? = some t.name := by simp [names, hi]
      have hnj : (names v0)[j]? = some t.name := by simp [names, hj, hname]
      obtain ⟨p1, q1⟩ := List.getElem?_eq_some_iff.1 hni
      obtain ⟨p2, q2⟩ := List.getElem?_eq_some_iff.1 hnj
      exact (List.Nodup.getElem_inj_iff c3.distinct).1 (q1.trans q2.symm)
    · intro k1 k2
      have li : ¬ i < v0.length := fun hc => k1 (hold t i hi hc)
      have lj : ¬ j < v0.length := fun hc => k1 (k2.trans (hold u j hj hc))
      obtain ⟨q, ta, tb, g1, g2, g3, g4⟩ := hnew t i hi li
      obtain ⟨q', ta', tb', g1', g2', g3', g4'⟩ := hnew u j hj lj
      rw [g4, g4', List.cons.injEq, List.cons.injEq] at k2
      obtain ⟨e1, e2, _⟩ := k2
      subst e1; subst e2
      have a1 := hidx _ _ g2
      have a2 := hidx _ _ g3
      have a3 := hidx _ _ g2'
      have a4 := hidx _ _ g3'
      have hqq : q = q' := Prod.ext (by omega) (by omega)
      subst hqq
      obtain ⟨p1, r1⟩ := List.getElem?_eq_some_iff.1 g1
      obtain ⟨p2, r2⟩ := List.getElem?_eq_some_iff.1 g1'
      have := (List.Nodup.getElem_inj_iff hnd).1 (r1.trans r2.symm)
      omega
  · cases h

/-- the run of the first example in Props/BpeLearn has merged types with different kids -/
example : (bpeLearn ordId accExact [lit "ab abc", lit " ab"] 0 1 none 2).map (fun v => (v.drop 6).map fun t => (t.name, t.kids.map (·.name))) =
    .ok [(lit "a", []), (lit "b", []), (lit "c", []), (lit "ab", [lit "a", lit "b"]), (lit "ab▁", [lit "ab", [SP]])] := by decide +kernel

/-- C73 is false: learning on text that contains "<s>" makes a new type of that name, at 13, which encoding never produces
because the reserved type of the same name, at 2, has the smaller index. -/
theorem C73_reserved_name_refuted : (bpeLearn ordId accExact [lit "<s>a <s>b <s>c <s>a"] 14 1 none 1).map names =
    .ok [lit "<pad>", lit "<unk>", lit "<s>", lit "</s>", lit "<cls>", [SP], lit "<", lit "s", lit ">", lit "a", lit "b", lit "c",
      lit "<s", lit "<s>"] := by decide +kernel

end Verif
