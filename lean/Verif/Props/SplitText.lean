import Verif.Props.Splits
import Verif.Props.BpeLearn
/-!
# Property C129: the encodings with random splits are exactly the decompositions of the plain encoding

Type.get_stochastic_split, BPEScheme.stochastic_split and BPEScheme.encode_str (nlcodec/codec.py).
-/

namespace Verif
open Spec

/-- ids whose names are known are the ids of types of the table -/
theorem types_of_names {tbl : List Ty} : ∀ {ids : List Int} {ps : List Str}, namesOf tbl ids = .ok ps →
    ∃ ts : List Ty, List.Forall₂ (fun i t => pyIndex tbl i = .ok t) ids ts ∧ ps = ts.map (·.name) ∧ ∀ t ∈ ts, t ∈ tbl
  | [], ps, h => by
    simp [namesOf] at h
    exact ⟨[], .nil, by simp [h], by simp⟩
  | i :: is, ps, h => by
    simp only [namesOf] at h
    cases hi : pyIndex tbl i with
    | error e => simp [hi] at h
    | ok t =>
      cases his : namesOf tbl is with
      | error e => simp [hi, his] at h
      | ok qs =>
        simp only [hi, his] at h
        cases h
        obtain ⟨ts, h1, h2, h3⟩ := types_of_names his
        refine ⟨t :: ts, .cons hi h1, by simp [h2], ?_⟩
        intro u hu
        rcases List.mem_cons.1 hu with rfl | hu
        · exact pyIndex_mem hi
        · exact h3 u hu

/-- whatever the draws, the split ids are those of a decomposition -/
theorem stochasticIds_derives {tbl : List Ty} (hb : ∀ t ∈ tbl, Binary t) (rng : Nat → Bool) {ids : List Int} {ts : List Ty}
    (h : List.Forall₂ (fun i t => pyIndex tbl i = .ok t) ids ts) : ∀ n, ∃ us, stochasticIds tbl rng ids n = .ok (us.map fun p => (p.idx : Int)) ∧ DerivesL ts us := by
  induction h with
  | nil => exact fun _ => ⟨[], rfl, .nil⟩
  | @cons i t is ts hi _ ih =>
    intro n
    obtain ⟨ds, m, hd, hder⟩ := stochasticSplit_derives (hb t (pyIndex_mem hi)) rng n
    obtain ⟨us, h1, h2⟩ := ih m
    exact ⟨ds ++ us, by simp [stochasticIds, hi, hd, h1], .cons hder h2⟩

/-- every decomposition comes from some draws -/
theorem derives_stochasticIds {tbl : List Ty} (hb : ∀ t ∈ tbl, Binary t) {ids : List Int} {ts : List Ty}
    (h : List.Forall₂ (fun i t => pyIndex tbl i = .ok t) ids ts) : ∀ {us : List Ty}, DerivesL ts us → ∀ (n : Nat) (rng0 : Nat → Bool),
      ∃ rng : Nat → Bool, (∀ k, k < n → rng k = rng0 k) ∧ stochasticIds tbl rng ids n = .ok (us.map fun p => (p.idx : Int)) := by
  induction h with
  | nil =>
    intro us hd n rng0
    cases hd
    exact ⟨rng0, fun _ _ => rfl, rfl⟩
  | @cons i t is ts hi _ ih =>
    intro us hd n rng0
    cases hd with
    | @cons _ _ x y h1 h2 =>
      obtain ⟨rng1, j, hj, ha, hr⟩ := derives_stochasticSplit h1 (hb t (pyIndex_mem hi)) n rng0
      obtain ⟨rng, hb', hs⟩ := ih h2 j rng1
      exact ⟨rng, fun k hk => (hb' k (by omega)).trans (ha k hk), by simp [stochasticIds, hi, hr rng hb', hs]⟩

theorem DerivesL.mem_table {tbl : List Ty} (hk : KidsEarlier tbl) {ts us : List Ty} (h : DerivesL ts us) (ht : ∀ t ∈ ts, t ∈ tbl) : ∀ p ∈ us, p ∈ tbl := by
  induction h with
  | nil => simp
  | cons h1 _ ih =>
    intro p hp
    rcases List.mem_append.1 hp with hp | hp
    · exact h1.mem_table hk (ht _ (by simp)) p hp
    · exact ih (fun t h => ht t (by simp [h])) p hp

theorem DerivesL.length_le {ts us : List Ty} (h : DerivesL ts us) : ts.length ≤ us.length := by
  induction h with
  | nil => simp
  | cons h1 _ ih =>
    have := List.length_pos_iff.2 h1.ne_nil
    simp only [List.length_cons, List.length_append]
    omega

/-- without a successful draw nothing is split -/
theorem stochasticIds_never {tbl : List Ty} (hb : ∀ t ∈ tbl, Binary t) {ids : List Int} {ts : List Ty} (h : List.Forall₂ (fun i t => pyIndex tbl i = .ok t) ids ts) :
    ∀ n, stochasticIds tbl (fun _ => false) ids n = .ok (ts.map fun p => (p.idx : Int)) := by
  induction h with
  | nil => exact fun _ => rfl
  | @cons i t is ts hi _ ih =>
    intro n
    have : ∃ m, t.stochasticSplit (fun _ => false) n = .ok ([t], m) := by
      cases hb t (pyIndex_mem hi) with
      | leaf hk => exact ⟨n, stochasticSplit_leaf _ n hk⟩
      | node hk _ _ => exact ⟨n + 1, by rw [stochasticSplit_node _ n hk]; simp⟩
    obtain ⟨m, hm⟩ := this
    simp [stochasticIds, hi, hm, ih m]

/-- C129: let the plain encoding of a line be the types `ts`. The piece sequences which encoding with random splits may give, over all outcomes of the draws, are exactly
the names of the sequences obtained from `ts` by repeatedly replacing a type by its two kids. Each of them has at least as many pieces as the plain encoding, every
outcome gives a result, and without a successful draw the result is the plain encoding. -/
theorem C129_iff {tbl : List Ty} {s : Scheme} (h : Scheme.make .bpe tbl = .ok s) (hi : Indexed tbl) (hk : KidsEarlier tbl) (hb : ∀ t ∈ tbl, Binary t) (line : Str) :
    ∃ ts : List Ty, (∀ t ∈ ts, t ∈ tbl) ∧ s.encodeStr line = .ok (ts.map (·.name)) ∧
      (∀ qs, (∃ rng, bpeEncodeStrSplit s rng line = .ok qs) ↔ ∃ us, SplitsTo ts us ∧ qs = us.map (·.name)) ∧
      (∀ rng, ∃ qs, bpeEncodeStrSplit s rng line = .ok qs ∧ ts.length ≤ qs.length) ∧
      bpeEncodeStrSplit s (fun _ => false) line = .ok (ts.map (·.name)) := by
  obtain ⟨h1, h2, _⟩ := make_bpe_ok h
  obtain ⟨_, ps, _, b, _⟩ := bpe_decode_encode h hi line
  subst h1
  have hb' := b
  simp only [Scheme.encodeStr, h2] at hb'
  cases hids : bpeIds s line with
  | error e => simp [hids] at hb'
  | ok is =>
    simp only [hids] at hb'
    obtain ⟨ts, t1, rfl, t3⟩ := types_of_names hb'
    have names : ∀ us, DerivesL ts us → namesOf s.table (us.map fun p => (p.idx : Int)) = .ok (us.map (·.name)) :=
      fun us hd => namesOf_types hi us (hd.mem_table hk t3)
    refine ⟨ts, t3, b, fun qs => ⟨?_, ?_⟩, fun rng => ?_, ?_⟩
    · rintro ⟨rng, hr⟩
      obtain ⟨us, u1, u2⟩ := stochasticIds_derives hb rng t1 0
      simp only [bpeEncodeStrSplit, hids, u1, names us u2, Except.ok.injEq] at hr
      exact ⟨us, (splitsTo_iff_derivesL _ _).2 u2, hr.symm⟩
    · rintro ⟨us, hu, rfl⟩
      have u2 := (splitsTo_iff_derivesL _ _).1 hu
      obtain ⟨rng, _, hr⟩ := derives_stochasticIds hb t1 u2 0 (fun _ => false)
      exact ⟨rng, by simp only [bpeEncodeStrSplit, hids, hr, names us u2]⟩
    · obtain ⟨us, u1, u2⟩ := stochasticIds_derives hb rng t1 0
      exact ⟨us.map (·.name), by simp only [bpeEncodeStrSplit, hids, u1, names us u2], by simpa using u2.length_le⟩
    · simp only [bpeEncodeStrSplit, hids, stochasticIds_never hb t1 0, names ts (DerivesL.refl ts)]

/-- if every draw succeeds a type is split into leaves, and every decomposition can be split further into these -/
theorem stochasticSplit_always {t : Ty} (h : Binary t) (i : Nat) :
    ∃ ps j, t.stochasticSplit (fun _ => true) i = .ok (ps, j) ∧ Derives t ps ∧ (∀ p ∈ ps, p.kids = []) ∧ ∀ qs, Derives t qs → DerivesL qs ps := by
  induction h generalizing i with
  | @leaf t hk =>
    refine ⟨[t], i, stochasticSplit_leaf _ i hk, .self t, by simpa using hk, fun qs hq => ?_⟩
    rw [hq.leaf_inv hk]
    exact DerivesL.refl _
  | @node t a b hk _ _ iha ihb =>
    obtain ⟨x, j, hx, dx, lx, mx⟩ := iha (i + 1)
    obtain ⟨y, k, hy, dy, ly, my⟩ := ihb j
    refine ⟨x ++ y, k, by rw [stochasticSplit_node _ i hk]; simp [hx, hy], .kids hk dx dy, ?_, fun qs hq => ?_⟩
    · intro p hp
      rcases List.mem_append.1 hp with hp | hp
      · exact lx p hp
      · exact ly p hp
    · cases hq with
      | self => exact (splitsTo_iff_derivesL _ _).1 ((splitsTo_single_iff _ _).2 (.kids hk dx dy))
      | kids hk' hu hv =>
        rw [hk] at hk'
        cases hk'
        exact (mx _ hu).append (my _ hv)

theorem stochasticIds_always {tbl : List Ty} (hb : ∀ t ∈ tbl, Binary t) {ids : List Int} {ts : List Ty} (h : List.Forall₂ (fun i t => pyIndex tbl i = .ok t) ids ts) :
    ∀ n, ∃ us, stochasticIds tbl (fun _ => true) ids n = .ok (us.map fun p => (p.idx : Int)) ∧ DerivesL ts us ∧ (∀ p ∈ us, p.kids = []) ∧
      ∀ qs, DerivesL ts qs → DerivesL qs us := by
  induction h with
  | nil => exact fun _ => ⟨[], rfl, .nil, by simp, fun qs hq => by cases hq; exact .nil⟩
  | @cons i t is ts hi _ ih =>
    intro n
    obtain ⟨ds, m, hd, hder, hl, hm⟩ := stochasticSplit_always (hb t (pyIndex_mem hi)) n
    obtain ⟨us, h1, h2, h3, h4⟩ := ih m
    refine ⟨ds ++ us, by simp [stochasticIds, hi, hd, h1], .cons hder h2, ?_, fun qs hq => ?_⟩
    · intro p hp
      rcases List.mem_append.1 hp with hp | hp
      · exact hl p hp
      · exact h3 p hp
    · cases hq with
      | cons hx hy => exact (hm _ hx).append (h4 _ hy)

/-- C129: if every draw succeeds (`split_ratio` at least 1) the pieces are the names of types without kids, and every other possible result can be split further into
this one; so no possible result is longer. -/
theorem C129_always {tbl : List Ty} {s : Scheme} (h : Scheme.make .bpe tbl = .ok s) (hi : Indexed tbl) (hk : KidsEarlier tbl) (hb : ∀ t ∈ tbl, Binary t) (line : Str) :
    ∃ us : List Ty, bpeEncodeStrSplit s (fun _ => true) line = .ok (us.map (·.name)) ∧ (∀ t ∈ us, t ∈ tbl ∧ t.kids = []) ∧
      ∀ rng, ∃ qs : List Ty, bpeEncodeStrSplit s rng line = .ok (qs.map (·.name)) ∧ SplitsTo qs us ∧ qs.length ≤ us.length := by
  obtain ⟨h1, h2, _⟩ := make_bpe_ok h
  obtain ⟨_, ps, _, b, _⟩ := bpe_decode_encode h hi line
  subst h1
  simp only [Scheme.encodeStr, h2] at b
  cases hids : bpeIds s line with
  | error e => simp [hids] at b
  | ok is =>
    simp only [hids] at b
    obtain ⟨ts, t1, rfl, t3⟩ := types_of_names b
    obtain ⟨us, u1, u2, u3, u4⟩ := stochasticIds_always hb t1 0
    have hm := u2.mem_table hk t3
    refine ⟨us, by simp only [bpeEncodeStrSplit, hids, u1, namesOf_types hi us hm], fun t ht => ⟨hm t ht, u3 t ht⟩, fun rng => ?_⟩
    obtain ⟨qs, q1, q2⟩ := stochasticIds_derives hb rng t1 0
    exact ⟨qs, by simp only [bpeEncodeStrSplit, hids, q1, namesOf_types hi qs (q2.mem_table hk t3)], (splitsTo_iff_derivesL _ _).2 (u4 qs q2), (u4 qs q2).length_le⟩

/-- the kids of the types of a learned vocabulary are none or two earlier types -/
theorem learned_binary {vocab : List Ty} (h : ∀ (i : Nat) (t : Ty), vocab[i]? = some t → t.kids = [] ∨ ∃ ja jb ta tb, ja < i ∧ jb < i ∧ vocab[ja]? = some ta ∧ vocab[jb]? = some tb ∧
      t.kids = [ta, tb] ∧ t.name = ta.name ++ tb.name) : KidsEarlier vocab ∧ ∀ t ∈ vocab, Spelled t := by
  constructor
  · intro i t ht k hk
    rcases h i t ht with h0 | ⟨ja, jb, ta, tb, h1, h2, h3, h4, h5, _⟩
    · simp [h0] at hk
    · simp only [h5, List.mem_cons, List.not_mem_nil, or_false] at hk
      rcases hk with rfl | rfl
      · exact ⟨ja, h1, h3⟩
      · exact ⟨jb, h2, h4⟩
  · have : ∀ (i : Nat) (t : Ty), vocab[i]? = some t → Spelled t := by
      intro i
      induction i using Nat.strong_induction_on with
      | _ i ih =>
        intro t ht
        rcases h i t ht with h0 | ⟨ja, jb, ta, tb, h1, h2, h3, h4, h5, h6⟩
        · exact .leaf h0
        · exact .node h5 h6 (ih ja h1 ta h3) (ih jb h2 tb h4)
    intro t ht
    obtain ⟨i, hi⟩ := List.mem_iff_getElem?.1 ht
    exact this i t hi

/-- C129 for every learned vocabulary: it is accepted, the encodings with random splits of every line are exactly the decompositions of the plain encoding, and all
of them spell the same text. -/
theorem C129_learned {ord : Nat → List Nat → List Nat} (hord : ∀ i l, (ord i l).Perm l) {A : Acc} {data : List Str} {vs mf minEv : Int} {cov : Option A.F}
    (hv : ∀ c, cov = some c → A.valid c = true) {vocab : List Ty} (h : bpeLearn ord A data vs mf cov minEv = .ok vocab) :
    ∃ s, Scheme.make .bpe vocab = .ok s ∧ ∀ line, ∃ ts : List Ty, s.encodeStr line = .ok (ts.map (·.name)) ∧
      (∀ qs, (∃ rng, bpeEncodeStrSplit s rng line = .ok qs) ↔ ∃ us, SplitsTo ts us ∧ qs = us.map (·.name)) ∧
      ∀ us, SplitsTo ts us → (us.map (·.name)).flatten = (ts.map (·.name)).flatten ∧ ts.length ≤ us.length := by
  obtain ⟨s, hs, _⟩ := C19_bpe_accepted hord hv h
  obtain ⟨hi, _, _, _, hk⟩ := C22_text hord hv h
  obtain ⟨k1, k2⟩ := learned_binary hk
  refine ⟨s, hs, fun line => ?_⟩
  obtain ⟨ts, t1, t2, t3, t4⟩ := C129_iff hs hi k1 (fun t ht => (k2 t ht).binary) line
  refine ⟨ts, t2, t3, fun us hu => ?_⟩
  have hd := (splitsTo_iff_derivesL _ _).1 hu
  refine ⟨?_, hd.length_le⟩
  clear hu t2 t3 t4
  induction hd with
  | nil => rfl
  | @cons t ts x y h1 _ ih =>
    have a := h1.spell (k2 t (t1 t (by simp)))
    have b := ih (fun t h => t1 t (by simp [h]))
    rw [List.map_append, List.flatten_append, a, b, List.map_cons, List.flatten_cons]

/-- the line `ab ab` may be split in nine ways; splitting only the second word is one of them -/
example : ∃ rng, (withScheme .bpe exSplit fun s => bpeEncodeStrSplit s rng (lit "ab ab")) = .ok [lit "ab▁", lit "a", lit "b", [SP]] :=
  ⟨fun i => i != 0, by decide⟩
example : (withScheme .bpe exSplit fun s => bpeEncodeStrSplit s (fun _ => false) (lit "ab ab")) = .ok [lit "ab▁", lit "ab▁"] := by decide

example : (withScheme .bpe exSplit fun s => bpeEncodeStrSplit s (fun _ => true) (lit "ab ab")) = .ok [lit "a", lit "b", [SP], lit "a", lit "b", [SP]] := by decide

/-- the hypotheses of `C129_iff` and `C129_always` hold for the example vocabulary -/
example : ∃ s, Scheme.make .bpe exSplit = .ok s ∧ Indexed exSplit ∧ KidsEarlier exSplit ∧ ∀ t ∈ exSplit, Binary t := by
  cases hm : Scheme.make .bpe exSplit with
  | ok s => exact ⟨s, rfl, exSplit_indexed, exSplit_kidsEarlier, fun t ht => (exSplit_spelled t ht).binary⟩
  | error e =>
    have hd : (withScheme .bpe exSplit fun s => s.encodeStr (lit "ab ab")) = .ok [lit "ab▁", lit "ab▁"] := by decide
    rw [withScheme, hm] at hd
    cases hd

end Verif
