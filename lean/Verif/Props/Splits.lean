import Verif.Props.Codec
import Verif.Lemmas.Splits
/-!
# Properties C06, C07: decompositions and stochastic splits
-/

namespace Verif
open Spec

theorem Spec.Spelled.binary {t : Ty} (h : Spelled t) : Binary t := by
  induction h with
  | leaf hk => exact .leaf hk
  | node hk _ _ _ iha ihb => exact .node hk iha ihb

theorem Derives.mem_table {tbl : List Ty} (hk : KidsEarlier tbl) {t : Ty} {ps : List Ty} (h : Derives t ps)
    (ht : t ∈ tbl) : ∀ p ∈ ps, p ∈ tbl := by
  induction h with
  | self t => simpa using ht
  | @kids t a b x y hkk _ _ iha ihb =>
    obtain ⟨i, hi, rfl⟩ := List.mem_iff_getElem.1 ht
    have h0 := hk i _ (List.getElem?_eq_getElem hi)
    rw [hkk] at h0
    obtain ⟨j, _, hj⟩ := h0 a (by simp)
    obtain ⟨j', _, hj'⟩ := h0 b (by simp)
    intro p hp
    rcases List.mem_append.1 hp with hp | hp
    · exact iha (List.mem_of_getElem? hj) p hp
    · exact ihb (List.mem_of_getElem? hj') p hp

theorem namesOf_types {tbl : List Ty} (hi : Indexed tbl) (ps : List Ty) (h : ∀ p ∈ ps, p ∈ tbl) :
    namesOf tbl (ps.map fun p => (p.idx : Int)) = .ok (ps.map (·.name)) := by
  induction ps with
  | nil => rfl
  | cons p ps ih =>
    simp [namesOf, pyIndex_some (hi.get (h p (by simp))), ih (fun q hq => h q (by simp [hq]))]

theorem stochasticIds_spec {tbl : List Ty} (hi : Indexed tbl) (hk : KidsEarlier tbl) (hs : ∀ t ∈ tbl, Spelled t)
    (rng : Nat → Bool) : ∀ (ids : List Int) (n : Nat) (ps : List Str), namesOf tbl ids = .ok ps →
      ∃ ids' ps', stochasticIds tbl rng ids n = .ok ids' ∧ namesOf tbl ids' = .ok ps' ∧ ps'.flatten = ps.flatten ∧
        ∀ p ∈ ps', p ∈ names tbl := by
  intro ids
  induction ids with
  | nil => intro n ps h; simp [namesOf] at h; subst h; exact ⟨[], [], rfl, rfl, rfl, by simp⟩
  | cons x xs ih =>
    intro n ps h
    simp only [namesOf] at h
    cases hx : pyIndex tbl x with
    | error e => simp [hx] at h
    | ok t =>
      cases hxs : namesOf tbl xs with
      | error e => simp [hx, hxs] at h
      | ok qs =>
        simp only [hx, hxs] at h
        cases h
        have ht : t ∈ tbl := pyIndex_mem hx
        obtain ⟨ds, m, hd, hder⟩ := stochasticSplit_derives (hs t ht).binary rng n
        obtain ⟨ids', ps', h1, h2, h3, h4⟩ := ih m qs hxs
        have hmem := hder.mem_table hk ht
        refine ⟨ds.map (fun p => (p.idx : Int)) ++ ids', ds.map (·.name) ++ ps', ?_, ?_, ?_, ?_⟩
        · simp [stochasticIds, hx, hd, h1]
        · exact namesOf_append _ _ _ _ _ (namesOf_types hi ds hmem) h2
        · simp [h3, hder.spell (hs t ht)]
        · intro p hp
          rcases List.mem_append.1 hp with hp | hp
          · obtain ⟨q, hq, rfl⟩ := List.mem_map.1 hp
            exact List.mem_map.2 ⟨q, hmem q hq, rfl⟩
          · exact h4 p hp

/-! ## C06 -/

/-- C06: for a well-formed vocabulary (indexed, kids earlier, composed names spelled by their kids), encoding with
random splits succeeds for every outcome of the draws; the pieces are vocabulary names and concatenate to the
same text as the unsplit pieces; the ids are valid and decode to the same text. -/
theorem C06_split_preserves_text {tbl : List Ty} {s : Scheme} (h : Scheme.make .bpe tbl = .ok s) (hi : Indexed tbl)
    (hk : KidsEarlier tbl) (hs : ∀ t ∈ tbl, Spelled t) (rng : Nat → Bool) (line : Str) :
    ∃ ps ps' ids ids', s.encodeStr line = .ok ps ∧ bpeEncodeStrSplit s rng line = .ok ps' ∧
      ps'.flatten = ps.flatten ∧ (∀ p ∈ ps', p ∈ names tbl) ∧
      s.encode line = .ok ids ∧ s.idsOf ps' = .ok ids' ∧ (∀ i ∈ ids', 0 ≤ i ∧ i < tbl.length) ∧
      s.decode ids' = s.decode ids := by
  obtain ⟨h1, h2, h3, h4, h5, h6⟩ := make_bpe_ok h
  obtain ⟨ids, ps, a, b, c⟩ := bpe_decode_encode h hi line
  subst h1
  have hb := b
  simp only [Scheme.encodeStr, h2] at hb
  cases hids : bpeIds s line with
  | error e => simp [hids] at hb
  | ok is =>
    simp only [hids] at hb
    obtain ⟨is', ps', e1, e2, e3, e4⟩ := stochasticIds_spec hi hk hs rng is 0 ps hb
    refine ⟨ps, ps', ids, ps'.map s.idOf, b, ?_, e3, e4, a, idsOf_eq (by rw [h2]; decide) h3 _, ?_, ?_⟩
    · simp [bpeEncodeStrSplit, hids, e1, e2]
    · intro i hi
      obtain ⟨p, _, rfl⟩ := List.mem_map.1 hi
      exact idOf_range (by rw [h2]; decide) h4 p
    · simp only [Scheme.decode, c, namesOf_idOf (by rw [h2]; decide) h4, Scheme.decodeStr, h2]
      have : (ps'.map fun p => if p ∈ s.table.map (·.name) then p else unkName) = ps' := by
        conv_rhs => rw [← List.map_id ps']
        exact List.map_congr_left fun p hp => if_pos (e4 p hp)
      rw [this, e3]

/-- vocabulary of the examples: a, b, ab = a+b, ab▁ = ab + ▁ -/
def exSplit : List Ty :=
  let sp : Ty := { name := [SP], level := -1, idx := 5, freq := -1, kids := [] }
  let a : Ty := { name := lit "a", level := 0, idx := 6, freq := 5, kids := [] }
  let b : Ty := { name := lit "b", level := 0, idx := 7, freq := 5, kids := [] }
  let ab : Ty := { name := lit "ab", level := 1, idx := 8, freq := 4, kids := [a, b] }
  let abs : Ty := { name := lit "ab▁", level := 1, idx := 9, freq := 4, kids := [ab, sp] }
  reservedTypes ++ [a, b, ab, abs]

example : (withScheme .bpe exSplit fun s => bpeEncodeStrSplit s (fun i => i != 2) (lit "ab ab")) =
    .ok [lit "a", lit "b", [SP], lit "ab▁"] := by decide
example : (withScheme .bpe exSplit fun s => s.encodeStr (lit "ab ab")) = .ok [lit "ab▁", lit "ab▁"] := by decide

theorem exSplit_indexed : Indexed exSplit := by
  intro i t h
  have hi : i < 10 := (List.getElem?_eq_some_iff.1 h).1
  have : ∀ i, i < 10 → ∀ t, exSplit[i]? = some t → t.idx = i := by decide
  exact this i hi t h

theorem exSplit_kidsEarlier : KidsEarlier exSplit := by
  intro i t h
  have hi : i < 10 := (List.getElem?_eq_some_iff.1 h).1
  have : ∀ i, i < 10 → ∀ t, exSplit[i]? = some t → ∀ k ∈ t.kids, ∃ j, j < i ∧ exSplit[j]? = some k := by decide
  exact this i hi t h

theorem exSplit_spelled : ∀ t ∈ exSplit, Spelled t := by
  have leafs : ∀ t ∈ exSplit.take 8, Spelled t := fun t ht => .leaf (by revert t; decide)
  have a : Spelled exSplit[6] := leafs _ (by decide)
  have b : Spelled exSplit[7] := leafs _ (by decide)
  have c : Spelled exSplit[5] := leafs _ (by decide)
  have ab : Spelled exSplit[8] := .node (a := exSplit[6]) (b := exSplit[7]) (by decide) (by decide) a b
  have abs : Spelled exSplit[9] := .node (a := exSplit[8]) (b := exSplit[5]) (by decide) (by decide) ab c
  intro t ht
  have e : exSplit = exSplit.take 8 ++ [exSplit[8], exSplit[9]] := by decide
  rw [e] at ht
  rcases List.mem_append.1 ht with ht | ht
  · exact leafs t ht
  · simp only [List.mem_cons, List.not_mem_nil, or_false] at ht
    rcases ht with rfl | rfl
    · exact ab
    · exact abs

/-- `C06_split_preserves_text` applies to the example vocabulary -/
example (rng : Nat → Bool) : ∃ ps', (withScheme .bpe exSplit fun s => bpeEncodeStrSplit s rng (lit "ab ab")) = .ok ps' ∧
    ps'.flatten = lit "ab▁ab▁" := by
  have hm : ∃ s, Scheme.make .bpe exSplit = .ok s := by
    cases hm : Scheme.make .bpe exSplit with
    | ok s => exact ⟨s, rfl⟩
    | error e =>
      have hd : (withScheme .bpe exSplit fun s => s.encodeStr (lit "ab ab")) = .ok [lit "ab▁", lit "ab▁"] := by decide
      rw [withScheme, hm] at hd; cases hd
  obtain ⟨s, hs⟩ := hm
  have hd : (withScheme .bpe exSplit fun s => s.encodeStr (lit "ab ab")) = .ok [lit "ab▁", lit "ab▁"] := by decide
  obtain ⟨ps, ps', _, _, a, b, c, _⟩ :=
    C06_split_preserves_text hs exSplit_indexed exSplit_kidsEarlier exSplit_spelled rng (lit "ab ab")
  rw [withScheme, hs] at hd
  simp only [a] at hd
  cases hd
  exact ⟨ps', by rw [withScheme, hs]; exact b, by rw [c]; decide⟩

/-! ## C07 -/

/-- C07: `get_permutations` returns exactly the sequences obtained by repeatedly replacing a type by its two kids,
the undivided type first and no sequence twice. -/
theorem C07_permutations_exact {t : Ty} (h : Binary t) :
    ∃ L, t.getPermutations = .ok L ∧ L.head? = some [t] ∧ L.Nodup ∧ ∀ ps, ps ∈ L ↔ SplitsTo [t] ps := by
  obtain ⟨L, h1, h2, h3⟩ := getPermutations_spec h
  exact ⟨L, h1, h2, getPermutations_nodup h L h1, fun ps => (h3 ps).trans (splitsTo_single_iff t ps).symm⟩

/-- C07: every decomposition spells the name of the type. -/
theorem C07_permutations_spell {t : Ty} (h : Spelled t) {ps : List Ty} (hp : SplitsTo [t] ps) :
    (ps.map (·.name)).flatten = t.name := ((splitsTo_single_iff t ps).1 hp).spell h

/-- C07: every stochastic split, whatever the draws, is one of the listed sequences. -/
theorem C07_split_is_permutation {t : Ty} (h : Binary t) (rng : Nat → Bool) :
    ∃ L ps n, t.getPermutations = .ok L ∧ t.stochasticSplit rng 0 = .ok (ps, n) ∧ ps ∈ L := by
  obtain ⟨L, h1, _, h3⟩ := getPermutations_spec h
  obtain ⟨ps, n, h4, h5⟩ := stochasticSplit_derives h rng 0
  exact ⟨L, ps, n, h1, h4, (h3 ps).2 h5⟩

/-- C07: conversely every listed sequence is the stochastic split for some outcome of the draws. -/
theorem C07_permutation_is_split {t : Ty} (h : Binary t) {L : List (List Ty)} (hL : t.getPermutations = .ok L)
    {ps : List Ty} (hp : ps ∈ L) : ∃ (rng : Nat → Bool) (n : Nat), t.stochasticSplit rng 0 = .ok (ps, n) := by
  obtain ⟨L', h1, _, h3⟩ := getPermutations_spec h
  rw [hL] at h1; cases h1
  obtain ⟨rng, n, _, _, hr⟩ := derives_stochasticSplit ((h3 ps).1 hp) h 0 (fun _ => false)
  exact ⟨rng, n, hr rng (fun _ _ => rfl)⟩

theorem permutations_error {t : Ty} {e : Exc} (h : t.getPermutations = .error e) : e = .value := by
  induction t using Ty.ind generalizing e with
  | h t ih =>
    obtain ⟨n, l, i, f, ks⟩ := t
    match ks, ih, h with
    | [], _, h => simp [Ty.getPermutations] at h
    | [_], _, h => simp only [Ty.getPermutations] at h; cases h; rfl
    | [a, b], ih, h =>
      rw [getPermutations_node (a := a) (b := b) rfl] at h
      cases ha : a.getPermutations with
      | error e' =>
        simp only [ha] at h
        cases h
        exact ih a (by simp) ha
      | ok A =>
        cases hb : b.getPermutations with
        | error e' =>
          simp only [ha, hb] at h
          cases h
          exact ih b (by simp) hb
        | ok B => simp [ha, hb] at h
    | _ :: _ :: _ :: _, _, h => simp only [Ty.getPermutations] at h; cases h; rfl

/-- C07: the enumeration fails, always with a ValueError, exactly if some node has one kid or more than two. -/
theorem C07_not_binary_fails (t : Ty) : t.getPermutations = .error .value ↔ ¬ Binary t := by
  constructor
  · intro h hb
    obtain ⟨L, hL, _⟩ := C07_permutations_exact hb
    rw [h] at hL
    cases hL
  · intro hb
    cases h : t.getPermutations with
    | error e => rw [permutations_error h]
    | ok L =>
      refine absurd ?_ hb
      clear hb
      induction t using Ty.ind generalizing L with
      | h t ih =>
        obtain ⟨n, l, i, f, ks⟩ := t
        match ks, ih, h with
        | [], _, _ => exact .leaf rfl
        | [_], _, h => simp [Ty.getPermutations] at h
        | [a, b], ih, h =>
          rw [getPermutations_node (a := a) (b := b) rfl] at h
          cases ha : a.getPermutations with
          | error e => simp [ha] at h
          | ok A =>
            cases hb : b.getPermutations with
            | error e => simp [ha, hb] at h
            | ok B => exact .node rfl (ih a (by simp) A ha) (ih b (by simp) B hb)
        | _ :: _ :: _ :: _, _, h => simp [Ty.getPermutations] at h

example : ¬ Binary ⟨lit "ab", 1, 7, 1, [⟨lit "ab", 0, 6, 1, []⟩]⟩ := by
  rw [← C07_not_binary_fails]; decide
example : (exSplit[9].getPermutations.map fun L => L.map fun ps => ps.map (·.name)) =
    .ok [[lit "ab▁"], [lit "ab", [SP]], [lit "a", lit "b", [SP]]] := by decide
example : Binary exSplit[9] := (exSplit_spelled _ (by decide)).binary

end Verif
