import Verif.Model.Depth
import Verif.Lemmas.TrieCount
import Verif.Props.Rare
/-!
# Property C101: long types and the recursion limit

Building the trie of a BPE scheme recurses along the names.  It needs twice as many frames as the longest name has characters, so tables
that learning makes cannot be saved or loaded if they have names longer than about half the limit.
-/

namespace Verif
open Spec

namespace Trie
variable {α : Type}

theorem insertDeep_eq (w : Str) (d : α) : ∀ (n : Nat) (t : Trie α), insertDeep n w d t = if w.length < n then .ok (insert w d t) else .error .recursion := by
  induction w with
  | nil => intro n t; cases n <;> simp [insertDeep, insert]
  | cons c cs ih =>
    intro n t
    cases n with
    | zero => simp [insertDeep]
    | succ n =>
      simp only [insertDeep, ih, List.length_cons, Nat.add_lt_add_iff_right]
      by_cases h : cs.length < n <;> simp [h, insert]

theorem fits_iff {q : Nat} {t : Trie α} {n : Nat} {d : Option α} {ks : List (Nat × Trie α)} (ht : t = ⟨d, ks⟩) :
    (∀ p ∈ paths t, q * (p.length + 1) ≤ n) ↔ q ≤ n ∧ ∀ p ∈ pathsL ks, q * p.length ≤ n - q := by
  subst ht
  simp only [paths, List.mem_cons, forall_eq_or_imp, List.length_nil, Nat.mul_one, Nat.mul_add, Nat.mul_zero, Nat.zero_add]
  refine and_congr_right fun h => forall₂_congr fun p _ => ?_
  omega

theorem fitsL_iff {q : Nat} {t : Trie α} {n c : Nat} {ks : List (Nat × Trie α)} :
    (∀ p ∈ pathsL ((c, t) :: ks), q * p.length ≤ n) ↔ (∀ p ∈ paths t, q * (p.length + 1) ≤ n) ∧ ∀ p ∈ pathsL ks, q * p.length ≤ n := by
  simp only [pathsL, List.mem_append, List.mem_map, or_imp, forall_and, forall_exists_index, and_imp, forall_apply_eq_imp_iff₂, List.length_cons]

theorem sizeDeep_eq (q : Nat) : (∀ (t : Trie α) (n : Nat),
      sizeDeep q n t = if ∀ p ∈ paths t, q * (p.length + 1) ≤ n then .ok (size t) else .error .recursion) ∧
    ∀ (ks : List (Nat × Trie α)) (n : Nat), sizesDeep q n ks = if ∀ p ∈ pathsL ks, q * p.length ≤ n then .ok (sizes ks) else .error .recursion := by
  refine ind2 ?_ ?_ ?_
  · intro d ks ih n
    rw [if_congr (fits_iff rfl) rfl rfl]
    simp only [sizeDeep, size, ih]
    by_cases h1 : n < q
    · rw [if_pos h1, if_neg (by omega)]
    · rw [if_neg h1]
      by_cases h2 : ∀ p ∈ pathsL ks, q * p.length ≤ n - q
      · simp only [if_pos h2, if_pos (show q ≤ n ∧ ∀ p ∈ pathsL ks, q * p.length ≤ n - q from ⟨by omega, h2⟩)]
      · simp only [if_neg h2, if_neg (fun h : q ≤ n ∧ ∀ p ∈ pathsL ks, q * p.length ≤ n - q => h2 h.2)]
  · intro n; simp [sizesDeep, pathsL, sizes]
  · intro c t ks h1 h2 n
    rw [if_congr fitsL_iff rfl rfl]
    simp only [sizesDeep, sizes, h1, h2]
    by_cases g1 : ∀ p ∈ paths t, q * (p.length + 1) ≤ n
    · rw [if_pos g1]
      by_cases g2 : ∀ p ∈ pathsL ks, q * p.length ≤ n
      · rw [if_pos g2, if_pos ⟨g1, g2⟩]
      · rw [if_neg g2, if_neg fun h => g2 h.2]
    · simp only [if_neg g1, if_neg (fun h : (∀ p ∈ paths t, q * (p.length + 1) ≤ n) ∧ ∀ p ∈ pathsL ks, q * p.length ≤ n => g1 h.1)]

theorem dataCountDeep_eq (q : Nat) : (∀ (t : Trie α) (n : Nat),
      dataCountDeep q n t = if ∀ p ∈ paths t, q * (p.length + 1) ≤ n then .ok (dataCount t) else .error .recursion) ∧
    ∀ (ks : List (Nat × Trie α)) (n : Nat),
      dataCountsDeep q n ks = if ∀ p ∈ pathsL ks, q * p.length ≤ n then .ok (dataCounts ks) else .error .recursion := by
  refine ind2 ?_ ?_ ?_
  · intro d ks ih n
    rw [if_congr (fits_iff rfl) rfl rfl]
    simp only [dataCountDeep, dataCount, ih]
    by_cases h1 : n < q
    · rw [if_pos h1, if_neg (by omega)]
    · rw [if_neg h1]
      by_cases h2 : ∀ p ∈ pathsL ks, q * p.length ≤ n - q
      · simp only [if_pos h2, if_pos (show q ≤ n ∧ ∀ p ∈ pathsL ks, q * p.length ≤ n - q from ⟨by omega, h2⟩)]
      · simp only [if_neg h2, if_neg (fun h : q ≤ n ∧ ∀ p ∈ pathsL ks, q * p.length ≤ n - q => h2 h.2)]
  · intro n; simp [dataCountsDeep, pathsL, dataCounts]
  · intro c t ks h1 h2 n
    rw [if_congr fitsL_iff rfl rfl]
    simp only [dataCountsDeep, dataCounts, h1, h2]
    by_cases g1 : ∀ p ∈ paths t, q * (p.length + 1) ≤ n
    · rw [if_pos g1]
      by_cases g2 : ∀ p ∈ pathsL ks, q * p.length ≤ n
      · rw [if_pos g2, if_pos ⟨g1, g2⟩]
      · rw [if_neg g2, if_neg fun h => g2 h.2]
    · simp only [if_neg g1, if_neg (fun h : (∀ p ∈ paths t, q * (p.length + 1) ≤ n) ∧ ∀ p ∈ pathsL ks, q * p.length ≤ n => g1 h.1)]

end Trie

theorem insertAllDeep_eq (n : Nat) (table : List Ty) : ∀ root : Trie Ty, insertAllDeep n table root =
    if ∀ t ∈ table, t.name.length < n then .ok (table.foldl (fun root t => root.insert t.name t) root) else .error .recursion := by
  induction table with
  | nil => intro root; simp [insertAllDeep]
  | cons t ts ih =>
    intro root
    simp only [insertAllDeep, Trie.insertDeep_eq]
    by_cases h : t.name.length < n
    · rw [if_pos h]
      simp only [ih, List.mem_cons, forall_eq_or_imp, h, true_and, List.foldl_cons]
    · rw [if_neg h, if_neg fun g => h (g t (by simp))]

/-- C101, as far as it holds, for any table that a BPE scheme accepts without a limit: with `n` free frames, and two or more of them taken at
each level of the trie, the scheme is built just if the longest name, with one more character, fits in `n`; else RecursionError is raised.
Missing: longer names (`C101_refuted`). -/
theorem C101_fits_partial {q n : Nat} (hq : 2 ≤ q) {table : List Ty} {s : Scheme} (h : Scheme.make .bpe table = .ok s) :
    ((∀ t ∈ table, q * (t.name.length + 1) ≤ n) → Scheme.makeDeep q n .bpe table = .ok s) ∧
    ((∃ t ∈ table, n < q * (t.name.length + 1)) → Scheme.makeDeep q n .bpe table = .error .recursion) := by
  obtain ⟨h1, h2, h3, h4, h5, h6⟩ := make_bpe_ok h
  have hne : table ≠ [] := by
    rintro rfl
    revert h4; decide
  have hmul : ∀ k : Nat, 2 * (k + 1) ≤ q * (k + 1) := fun k => Nat.mul_le_mul_right _ hq
  have hpaths : (∀ p ∈ (buildTrie table).paths, q * (p.length + 1) ≤ n) ↔ ∀ t ∈ table, q * (t.name.length + 1) ≤ n := by
    simp only [Trie.mem_paths.1 _ (WF_buildTrie table), find_buildTrie_isSome]
    constructor
    · exact fun g t ht => g t.name (.inr ⟨t, ht, List.prefix_rfl⟩)
    · intro g p hp
      have hle : ∃ t ∈ table, p.length ≤ t.name.length := by
        rcases hp with rfl | ⟨t, ht, hp⟩
        · obtain ⟨t, ht⟩ := List.exists_mem_of_ne_nil _ hne
          exact ⟨t, ht, Nat.zero_le _⟩
        · exact ⟨t, ht, hp.length_le⟩
      obtain ⟨t, ht, hl⟩ := hle
      exact le_trans (Nat.mul_le_mul_left q (by omega)) (g t ht)
  have hmake : Scheme.makeDeep q n .bpe table = if ∀ t ∈ table, t.name.length < n - 1 then
      (if ∀ t ∈ table, q * (t.name.length + 1) ≤ n then .ok s else .error .recursion) else .error .recursion := by
    simp only [Scheme.makeDeep, h4, insertAllDeep_eq]
    by_cases g : ∀ t ∈ table, t.name.length < n - 1
    · rw [if_pos g, if_pos g]
      change (if (buildTrie table).data.isSome = true then _ else _) = _
      rw [h6, if_neg (by simp)]
      simp only [Trie.sizeDeep_eq, Trie.dataCountDeep_eq, show table.foldl (fun root t => root.insert t.name t) Trie.empty = buildTrie table from rfl]
      rw [if_congr hpaths rfl rfl]
      by_cases g2 : ∀ t ∈ table, q * (t.name.length + 1) ≤ n
      · rw [if_pos g2, if_pos g2]
        simp only [if_congr hpaths rfl rfl, if_pos g2]
        simp only [Scheme.make, h4, h6] at h
        simpa using h
      · rw [if_neg g2, if_neg g2]
    · rw [if_neg g, if_neg g]
  constructor
  · intro g
    rw [hmake, if_pos, if_pos g]
    intro t ht
    have := g t ht
    have := hmul t.name.length
    omega
  · rintro ⟨t, ht, hlt⟩
    have g : ¬ ∀ t ∈ table, q * (t.name.length + 1) ≤ n := fun g => by have := g t ht; omega
    rw [hmake, if_neg g, ite_self]

/-- a name of three characters needs eight frames -/
example : (Scheme.makeDeep 2 8 .bpe (exTable Level.subword ["a", "b", "abb"])).toOption.isSome = false ∧
    (Scheme.make .bpe (exTable Level.subword ["a", "b", "abb"])).toOption.isSome = true ∧
    (∃ t ∈ exTable Level.subword ["a", "b", "abb"], 8 < 2 * (t.name.length + 1)) ∧
    (Scheme.makeDeep 2 12 .bpe (exTable Level.subword ["a", "b", "abb"])).toOption.isSome = true := by decide +kernel

/-- C101: reading a model.  Schemes other than BPE are not affected. -/
theorem C101_load_partial {q n : Nat} (hq : 2 ≤ q) {J : Json} {text : Str} {s : Scheme} (h : loadScheme J text = .ok s) :
    (s.kind ≠ .bpe ∨ (∀ t ∈ s.table, q * (t.name.length + 1) ≤ n) → loadSchemeDeep q n J text = .ok s) ∧
    (s.kind = .bpe ∧ (∃ t ∈ s.table, n < q * (t.name.length + 1)) → loadSchemeDeep q n J text = .error .recursion) := by
  simp only [loadScheme, loadSchemeDeep] at h ⊢
  cases hr : readVocab J text with
  | error e => simp [hr] at h
  | ok r =>
    obtain ⟨types, hd⟩ := r
    simp only [hr] at h ⊢
    cases hk : headerKind hd with
    | error e => simp [hk] at h
    | ok k =>
      simp only [hk] at h ⊢
      have other : k ≠ .bpe → s.kind ≠ .bpe ∧ Scheme.makeDeep q n k types = Scheme.make k types := by
        intro hne
        cases k with
        | bpe => exact absurd rfl hne
        | word => exact ⟨by rw [(make_word_ok h).2.1]; decide, rfl⟩
        | char => exact ⟨by rw [(make_char_ok h).2.1]; decide, rfl⟩
        | clasz => exact ⟨by rw [(mkInvertible_ok h).2.1]; decide, rfl⟩
        | byte => exact ⟨by rw [(mkInvertible_ok h).2.1]; decide, rfl⟩
      by_cases hb : k = .bpe
      · subst hb
        obtain ⟨h1, h2, _⟩ := make_bpe_ok h
        rw [h1]
        have := C101_fits_partial (n := n) hq h
        refine ⟨?_, fun g => this.2 g.2⟩
        rintro (g | g)
        · exact absurd h2 g
        · exact this.1 g
      · obtain ⟨g1, g2⟩ := other hb
        exact ⟨fun _ => g2.trans h, fun g => absurd g.1 g1⟩

/-- C101 is false: for any number of free frames (up to 2^58) there is a text of three words from which BPE is learned with the threshold 2
and no size.  The scheme could be built and written without the limit, but `Scheme(table).save` ends with RecursionError and leaves no model;
and a model written elsewhere cannot be read. -/
theorem C101_refuted {ord : Nat → List Nat → List Nat} (hord : ∀ i l, (ord i l).Perm l) (A : Acc) {q n : Nat} (hq : 2 ≤ q) (hn : n < 2 ^ 58) :
    ∃ data vocab s, bpeLearn ord A data 0 1 none 2 = .ok vocab ∧ Scheme.make .bpe vocab = .ok s ∧
      (∀ J model, saveModelDeep q n J .bpe vocab model = (model, some .recursion)) ∧
      ∀ J text, loadScheme J text = .ok s → loadSchemeDeep q n J text = .error .recursion := by
  have hq2 : n < q * (((List.replicate (n + 1) 97 : Str) ++ [SP]).length + 1) := by
    rw [List.length_append, List.length_replicate, List.length_singleton]
    have := Nat.mul_le_mul_right (n + 1 + 1 + 1) hq
    omega
  generalize hw : (List.replicate (n + 1) 97 : Str) = w at hq2
  have hwc : ∀ c ∈ w, c = 97 := by rw [← hw]; intro c hc; exact List.eq_of_mem_replicate hc
  have htok : ∀ u : Str, u ≠ [] → (∀ c ∈ u, c = 97 ∨ c = 98) → Tokens u [u] := by
    intro u hne hu
    have : IsToken u := ⟨hne, fun c hc => by rcases hu c hc with rfl | rfl <;> decide⟩
    simpa using Tokens.last (g := []) (h := []) (by simp [AllSpace]) this (by simp [AllSpace])
  have hwt : Tokens w [w] := htok w (by rw [← hw]; simp) fun c hc => .inl (hwc c hc)
  have hbt : Tokens [98] [[98]] := htok _ (by simp) (by simp)
  have ht : List.Forall₂ Tokens [w, w, [98]] [[w], [w], [[98]]] := .cons hwt (.cons hwt (.cons hbt .nil))
  have hflat : [[w], [w], [[98]]].flatten = [w, w, [98]] := rfl
  have hsize : (([[w], [w], [[98]]] : List (List Str)).flatten.map fun w => w.length + 1).sum < 2 ^ 60 := by
    rw [hflat, ← hw]
    simp only [List.map_cons, List.map_nil, List.sum_cons, List.sum_nil, List.length_replicate, List.length_singleton]
    omega
  have hno : (98 : Nat) ∉ w := fun h => absurd (hwc _ h) (by decide)
  obtain ⟨vocab, hvoc⟩ := C25_rare_partial hord A (vs := 0) (minEv := 2) 1 ht hsize (by decide) (by decide) (c := 98) (by decide)
    (by simp) (by rw [hflat]; simp [List.count_eq_zero_of_not_mem hno])
  have hv : ∀ c, (none : Option A.F) = some c → A.valid c = true := by simp
  obtain ⟨s, hs, _⟩ := C19_bpe_accepted hord hv hvoc
  have hstop : (vocab.length : Int) < effSize 0 2 := by
    have := vocab_bound hord ht hv hvoc
    rw [effSize, if_pos ⟨by decide, by decide⟩]
    omega
  have hmem : w ∈ [[w], [w], [[98]]].flatten := by simp
  obtain ⟨hname, _⟩ := C100_word hord ht hv hvoc hstop hmem
    (by rw [hflat, List.count_cons_self, List.count_cons_self]; omega) (learned_chars hord ht hvoc hmem) hs
  obtain ⟨t, htm, htn⟩ := List.mem_map.1 hname
  have hlong : ∃ t ∈ vocab, n < q * (t.name.length + 1) := ⟨t, htm, htn ▸ hq2⟩
  refine ⟨_, vocab, s, hvoc, hs, fun J model => ?_, fun J text hl => ?_⟩
  · rw [saveModelDeep, (C101_fits_partial hq hs).2 hlong]
  · obtain ⟨h1, h2, _⟩ := make_bpe_ok hs
    exact (C101_load_partial hq hl).2 ⟨h2, by rw [h1]; exact hlong⟩

/-- such a text for a limit of ten frames -/
example : (match bpeLearn ordId accExact [lit "aaaa", lit "aaaa", lit "b"] 0 1 none 2 with
    | .error _ => false
    | .ok v => decide ((Scheme.make .bpe v).toOption.isSome = true ∧ saveModelDeep 2 11 pyJson .bpe v none = (none, some .recursion) ∧
      (saveModelDeep 2 12 pyJson .bpe v none).2 = none)) = true := by decide +kernel

end Verif
