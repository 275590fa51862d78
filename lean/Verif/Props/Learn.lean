import Verif.Lemmas.Learn
import Verif.Lemmas.Byte
import Verif.Props.Codec
import Verif.Spec.Learn
import Mathlib.Data.List.Sort
import Mathlib.Tactic.Ring
import Mathlib.Tactic.Linarith
/-!
# Properties C10, C15-C19: learning word, char, class and byte vocabularies
-/

namespace Verif
open Spec

theorem total_eq (l : List Int) : total l = isum l := by
  induction l with
  | nil => rfl
  | cons a l ih => simp only [total, ih, isum, List.foldr_cons]

/-- shape of every successful `get_init_vocab` -/
theorem getInitVocab_ok {A : Acc} {level : Int} {tf : Dict Str Int} {cov : Option A.F} {lc : Option Int} {mf vs : Int}
    {vocab : List Ty} (hnd : (Dict.keys tf).Nodup) (h : getInitVocab A level tf cov lc mf vs = .ok vocab) :
    ∃ pre cut kept rest, sortByFreq (popReserved tf) = pre ++ cut ∧ (cov = none → cut = []) ∧
      kept = (trimTerms pre mf vs).1 ∧ pre = kept ++ rest ∧
      vocab = updateReserved tf (isum ((rest ++ cut).map (·.2))) lc ++
        kept.zipIdx.map fun (p, i) => { name := p.1, level := level, idx := i + 6, freq := p.2, kids := [] } := by
  have hpn := nodup_popReserved hnd
  simp only [getInitVocab] at h
  have key : ∀ tf2 u0, (match cov with
      | none => (.ok (popReserved tf, 0) : Py (Dict Str Int × Int))
      | some c => filterCoverage A (popReserved tf) c) = .ok (tf2, u0) →
      ∃ pre cut, sortByFreq (popReserved tf) = pre ++ cut ∧ (cov = none → cut = []) ∧ sortByFreq tf2 = pre ∧
        u0 = isum (cut.map (·.2)) := by
    intro tf2 u0 hc
    cases cov with
    | none =>
      simp only [Except.ok.injEq, Prod.mk.injEq] at hc
      obtain ⟨rfl, rfl⟩ := hc
      exact ⟨_, [], by simp, by simp, rfl, by simp [isum]⟩
    | some c =>
      simp only at hc
      have hval : A.valid c = true := by
        by_cases hv : A.valid c = true
        · exact hv
        · simp [filterCoverage, hv] at hc
      by_cases hz : popReserved tf ≠ [] ∧ isum (Dict.values (popReserved tf)) = 0
      · rw [filterCoverage_zero A hz.1 hz.2 hval] at hc; cases hc
      · obtain ⟨k, _, _, h3, _⟩ := filterCoverage_prefix A hpn (by tauto) hval
        rw [h3] at hc
        simp only [Except.ok.injEq, Prod.mk.injEq] at hc
        obtain ⟨rfl, rfl⟩ := hc
        refine ⟨_, _, (List.take_append_drop k _).symm, by simp, ?_, rfl⟩
        exact sortByFreq_of_sorted ((sortByFreq_sorted _).sublist (List.take_sublist _ _))
  split at h
  · cases h
  · rename_i tf2 u0 hm
    obtain ⟨pre, cut, h1, h2, h3, h4⟩ := key tf2 u0 hm
    rw [h3] at h
    simp only [Except.ok.injEq] at h
    have hsorted : pre.Pairwise (fun a b => b.2 ≤ a.2) := by rw [← h3]; exact sortByFreq_sorted _
    obtain ⟨rest, hr⟩ := trimTerms_prefix hsorted mf vs
    refine ⟨pre, cut, _, rest, h1, h2, rfl, hr.symm, ?_⟩
    have hmass := trimTerms_mass pre mf vs
    have hu : (trimTerms pre mf vs).2 = isum (rest.map (·.2)) := by
      conv at hmass => rhs; rw [← hr, List.map_append, isum_append]
      omega
    rw [← h, h4, hu, List.map_append, isum_append, Int.add_comm]

theorem updateReserved_length (tf : Dict Str Int) (u : Int) (lc : Option Int) : (updateReserved tf u lc).length = 6 := by
  simp [updateReserved, reservedTypes, reservedNames]

theorem updateReserved_shape (tf : Dict Str Int) (u : Int) (lc : Option Int) :
    (updateReserved tf u lc).map (fun t => (t.name, t.level, t.idx, t.kids)) =
      reservedTypes.map (fun t => (t.name, t.level, t.idx, t.kids)) := by
  simp only [updateReserved, List.map_map]
  apply List.map_congr_left
  intro t _
  simp only [Function.comp]
  split <;> rfl

theorem zipIdx_types_names (kept : List (Str × Int)) (level : Int) (o : Nat) :
    (kept.zipIdx.map fun (p, i) => ({ name := p.1, level := level, idx := i + o, freq := p.2, kids := [] } : Ty)).map (·.name)
      = kept.map (·.1) := by
  rw [List.map_map]
  have : ((fun t : Ty => t.name) ∘ fun (p : (Str × Int) × Nat) =>
      ({ name := p.1.1, level := level, idx := p.2 + o, freq := p.1.2, kids := [] } : Ty)) = (fun p => p.1) ∘ Prod.fst := rfl
  show List.map ((fun t : Ty => t.name) ∘ fun (p : (Str × Int) × Nat) =>
      ({ name := p.1.1, level := level, idx := p.2 + o, freq := p.1.2, kids := [] } : Ty)) _ = _
  rw [this, ← List.map_map, List.zipIdx_map_fst]

theorem zipIdx_types_freqs (kept : List (Str × Int)) (level : Int) (o : Nat) :
    (kept.zipIdx.map fun (p, i) => ({ name := p.1, level := level, idx := i + o, freq := p.2, kids := [] } : Ty)).map (·.freq)
      = kept.map (·.2) := by
  rw [List.map_map]
  have : ((fun t : Ty => t.freq) ∘ fun (p : (Str × Int) × Nat) =>
      ({ name := p.1.1, level := level, idx := p.2 + o, freq := p.1.2, kids := [] } : Ty)) = (fun p => p.2) ∘ Prod.fst := rfl
  show List.map ((fun t : Ty => t.freq) ∘ fun (p : (Str × Int) × Nat) =>
      ({ name := p.1.1, level := level, idx := p.2 + o, freq := p.1.2, kids := [] } : Ty)) _ = _
  rw [this, ← List.map_map, List.zipIdx_map_fst]

theorem mem_zipIdx_types {kept : List (Str × Int)} {level : Int} {o : Nat} {t : Ty}
    (h : t ∈ kept.zipIdx.map fun (p, i) => ({ name := p.1, level := level, idx := i + o, freq := p.2, kids := [] } : Ty)) :
    (t.name, t.freq) ∈ kept ∧ t.level = level ∧ t.kids = [] := by
  rw [List.mem_map] at h
  obtain ⟨⟨p, i⟩, hm, rfl⟩ := h
  have := List.mem_zipIdx hm
  refine ⟨?_, rfl, rfl⟩
  obtain ⟨_, _, h3⟩ := this
  simp only [h3]
  exact List.getElem_mem _

theorem indexed_reserved_append (tf : Dict Str Int) (u : Int) (lc : Option Int) (kept : List (Str × Int)) (level : Int) :
    Indexed (updateReserved tf u lc ++
        kept.zipIdx.map fun (p, i) => { name := p.1, level := level, idx := i + 6, freq := p.2, kids := [] }) := by
  intro i t ht
  by_cases hi : i < 6
  · rw [List.getElem?_append_left (by rw [updateReserved_length]; exact hi)] at ht
    have h1 := congrArg (fun l => l[i]?) (updateReserved_shape tf u lc)
    simp only [List.getElem?_map, ht, Option.map_some] at h1
    have h2 : ∀ j, j < 6 → (reservedTypes[j]?.map (fun t : Ty => (t.name, t.level, t.idx, t.kids))).map (·.2.2.1) = some j := by
      decide
    have h3 := h2 i hi
    rw [← h1] at h3
    simpa using h3
  · rw [List.getElem?_append_right (by rw [updateReserved_length]; omega), updateReserved_length, List.getElem?_map,
      List.getElem?_zipIdx] at ht
    simp only [Option.map_map, Option.map_eq_some_iff] at ht
    obtain ⟨p, _, rfl⟩ := ht
    simp; omega

theorem names_reserved_append (tf : Dict Str Int) (u : Int) (lc : Option Int) (kept : List (Str × Int)) (level : Int) :
    names (updateReserved tf u lc ++
        kept.zipIdx.map fun (p, i) => { name := p.1, level := level, idx := i + 6, freq := p.2, kids := [] })
      = reservedNames ++ kept.map (·.1) := by
  simp only [names, List.map_append]
  rw [zipIdx_types_names]
  congr 1
  have h1 := congrArg (List.map Prod.fst) (updateReserved_shape tf u lc)
  simp only [List.map_map] at h1
  exact h1

/-! ## C15 -/

/-- C15: the contract holds for every frequency table (a Python dict: distinct keys; counts at least 1), whatever the
coverage arithmetic, `min_freq` and `vocab_size`. -/
theorem C15_contract {A : Acc} {level : Int} {tf : Dict Str Int} {cov : Option A.F} {lc : Option Int} {mf vs : Int}
    {vocab : List Ty} (hnd : (Dict.keys tf).Nodup) (hpos : ∀ p ∈ tf, 1 ≤ p.2)
    (h : getInitVocab A level tf cov lc mf vs = .ok vocab) : VocabContract level mf tf vocab := by
  obtain ⟨pre, cut, kept, rest, h1, _, hk, hpre, rfl⟩ := getInitVocab_ok hnd h
  have hall : sortByFreq (popReserved tf) = kept ++ (rest ++ cut) := by rw [h1, hpre, List.append_assoc]
  have hperm := sortByFreq_perm (popReserved tf)
  have hsorted := sortByFreq_sorted (popReserved tf)
  have hmem : ∀ p ∈ kept ++ (rest ++ cut), p ∈ tf ∧ p.1 ∉ reservedNames := fun p hp =>
    (mem_popReserved hnd p.1 p.2).1 (hperm.subset (hall ▸ hp))
  have hnodup : ((kept ++ (rest ++ cut)).map (·.1)).Nodup := by
    rw [← hall]; exact (hperm.map _).nodup_iff.2 (nodup_popReserved hnd)
  have hdrop : ∀ X, (updateReserved tf (isum ((rest ++ cut).map (·.2))) lc ++ X).drop 6 = X := by
    intro X; rw [List.drop_left' (updateReserved_length _ _ _)]
  rw [hall] at hsorted
  refine ⟨?_, indexed_reserved_append _ _ _ _ _, ?_, ?_, ?_, ?_, ?_⟩
  · rw [List.take_left' (updateReserved_length _ _ _)]
    have h1 := congrArg (List.map fun x => (x.1, x.2.1, x.2.2.2)) (updateReserved_shape tf (isum ((rest ++ cut).map (·.2))) lc)
    simp only [List.map_map] at h1
    exact h1.trans (by decide)
  · rw [names_reserved_append, List.nodup_append]
    refine ⟨nodup_reservedNames, ?_, ?_⟩
    · rw [List.map_append, List.nodup_append] at hnodup; exact hnodup.1
    · intro a ha b hb e
      obtain ⟨p, hp, rfl⟩ := List.mem_map.1 hb
      exact (hmem p (by simp [hp])).2 (e ▸ ha)
  · rw [hdrop, ← List.pairwise_map (f := fun t : Ty => t.freq) (R := fun a b => b ≤ a), zipIdx_types_freqs, List.pairwise_map]
    exact (List.pairwise_append.1 hsorted).1
  · rw [hdrop]
    intro t ht
    obtain ⟨a, b, c⟩ := mem_zipIdx_types ht
    exact ⟨(hmem _ (by simp [a])).1, b, c⟩
  · rw [hdrop]
    intro t ht
    obtain ⟨a, b, c⟩ := mem_zipIdx_types ht
    refine trimTerms_minFreq pre mf vs ?_ (t.name, t.freq) (hk ▸ a)
    intro p hp
    exact hpos p (hmem p (by rw [hpre] at hp; simp only [List.mem_append] at hp ⊢; tauto)).1
  · rw [hdrop, names_reserved_append]
    intro p hp hn t ht
    obtain ⟨a, b, c⟩ := mem_zipIdx_types ht
    simp only [List.mem_append, not_or, List.mem_map, not_exists, not_and] at hn
    have hin : p ∈ kept ++ (rest ++ cut) := by
      rw [← hall]; exact hperm.symm.subset ((mem_popReserved hnd p.1 p.2).2 ⟨hp, hn.1⟩)
    rcases List.mem_append.1 hin with hin | hin
    · exact absurd rfl (hn.2 p hin)
    · exact (List.pairwise_append.1 hsorted).2.2 _ a _ hin

/-- C15: with `vocab_size ≥ 6` the size bound holds.  Missing: `0 < vocab_size < 6` (see `C15_size_refuted`). -/
theorem C15_size_partial {A : Acc} {level : Int} {tf : Dict Str Int} {cov : Option A.F} {lc : Option Int} {mf vs : Int}
    {vocab : List Ty} (hnd : (Dict.keys tf).Nodup) (h6 : 6 ≤ vs)
    (h : getInitVocab A level tf cov lc mf vs = .ok vocab) : (vocab.length : Int) ≤ vs := by
  obtain ⟨pre, cut, kept, rest, h1, _, hk, hpre, rfl⟩ := getInitVocab_ok hnd h
  have := trimTerms_size pre mf vs h6
  rw [← hk] at this
  simp only [List.length_append, updateReserved_length, List.length_map, List.length_zipIdx]
  omega

/-- C15: exactly when a positive `vocab_size` is a bound for the size: when it leaves room for the six reserved types. -/
theorem C15_size_iff {A : Acc} {level : Int} {tf : Dict Str Int} {cov : Option A.F} {lc : Option Int} {mf vs : Int}
    {vocab : List Ty} (hnd : (Dict.keys tf).Nodup)
    (h : getInitVocab A level tf cov lc mf vs = .ok vocab) : (vocab.length : Int) ≤ vs ↔ 6 ≤ vs := by
  refine ⟨fun hle => ?_, fun h6 => C15_size_partial hnd h6 h⟩
  obtain ⟨pre, cut, kept, rest, h1, _, hk, hpre, rfl⟩ := getInitVocab_ok hnd h
  simp only [List.length_append, updateReserved_length, List.length_map, List.length_zipIdx] at hle
  omega

/-- C15: without coverage filter, a term is left out only because it is rarer than `min_freq`, or because
`vocab_size` is reached. -/
theorem C15_complete {A : Acc} {level : Int} {tf : Dict Str Int} {lc : Option Int} {mf vs : Int}
    {vocab : List Ty} (hnd : (Dict.keys tf).Nodup) (h : getInitVocab A level tf none lc mf vs = .ok vocab)
    {p : Str × Int} (hp : p ∈ tf) (hout : p.1 ∉ names vocab) :
    p.2 < mf ∨ (0 < vs ∧ (6 ≤ vs → (vocab.length : Int) = vs)) := by
  obtain ⟨pre, cut, kept, rest, h1, hc, hk, hpre, rfl⟩ := getInitVocab_ok hnd h
  have hc := hc rfl
  subst hc
  rw [names_reserved_append] at hout
  simp only [List.mem_append, not_or] at hout
  rw [List.append_nil] at h1
  have hin : p ∈ pre := by
    rw [← h1]; exact (sortByFreq_perm _).symm.subset ((mem_popReserved hnd p.1 p.2).2 ⟨hp, hout.1⟩)
  have hnk : p ∉ (trimTerms pre mf vs).1 := fun hm => hout.2 (List.mem_map.2 ⟨p, hk ▸ hm, rfl⟩)
  rcases trimTerms_complete pre mf vs p hin hnk with h2 | ⟨h2, h3⟩
  · exact Or.inl h2
  · refine Or.inr ⟨h2, fun h6 => ?_⟩
    have := h3 h6
    rw [← hk] at this
    simp only [List.length_append, updateReserved_length, List.length_map, List.length_zipIdx]
    omega

/-- term frequencies of the examples: three types -/
def exTf : Dict Str Int := [(lit "a", 3), (lit "b", 2), (lit "<unk>", 1), (lit "c", 5)]

/-- C15 is false for `0 < vocab_size < 6`: with `vocab_size = 5` and three terms, eight types are kept
(`vocab_size - 6` becomes a negative slice bound). -/
theorem C15_size_refuted : ∃ (tf : Dict Str Int) (vs : Int) (vocab : List Ty), (Dict.keys tf).Nodup ∧ (∀ p ∈ tf, 1 ≤ p.2) ∧
    0 < vs ∧ getInitVocab accExact Level.word tf none none 1 vs = .ok vocab ∧ vs < vocab.length :=
  ⟨exTf, 5, reservedTypes.map (fun t => if t.idx = 1 then { t with freq := 3 } else t) ++
    [⟨lit "c", 2, 6, 5, []⟩, ⟨lit "a", 2, 7, 3, []⟩], by decide, by decide, by decide, by decide, by decide⟩

example : getInitVocab accExact Level.word exTf none (some 2) 3 0 =
    .ok (reservedTypes.map (fun t => if t.idx = 1 then { t with freq := 3 } else if t.idx = 2 ∨ t.idx = 3 ∨ t.idx = 4 then
      { t with freq := 2 } else t) ++ [⟨lit "c", 2, 6, 5, []⟩, ⟨lit "a", 2, 7, 3, []⟩]) := by decide
example : (Dict.keys exTf).Nodup ∧ ∀ p ∈ exTf, 1 ≤ p.2 := by decide
example : (getInitVocab accExact Level.word exTf (some (1, 2)) (some 2) 1 7).toOption.map List.length = some 7 := by decide

/-- C15: what is counted.  For the word scheme the terms are the whitespace-separated tokens of the lines, for the char
scheme the characters of the tokens joined by U+2581; each count is the number of occurrences. -/
theorem C15_counts {k : Kind} (data : List Str) (toks : List (List Str)) (ht : List.Forall₂ Tokens data toks)
    (hk : k = .word ∨ k = .char) (n : Str) (f : Int) :
    (n, f) ∈ (termFrequencies k data).1 ↔
      n ∈ toks.flatMap (fun ws => if k = .word then ws else (List.intercalate [0x2581] ws).map fun c => [c]) ∧
      f = (toks.flatMap fun ws => if k = .word then ws else (List.intercalate [0x2581] ws).map fun c => [c]).count n := by
  have : data.flatMap (learnPieces k) =
      toks.flatMap (fun ws => if k = .word then ws else (List.intercalate [0x2581] ws).map fun c => [c]) := by
    induction ht with
    | nil => rfl
    | cons h1 _ ih =>
      rw [List.flatMap_cons, List.flatMap_cons, ih]
      congr 1
      rcases hk with rfl | rfl
      · simp only [learnPieces, split_strip, if_true]; exact split_of_tokens h1
      · simp only [learnPieces, split_strip, split_of_tokens h1, join_eq_intercalate]; rfl
  rw [termFrequencies_count, mem_count_nil, this]

example : (termFrequencies .word [lit "a b  a", lit " b\n"]).1 = [(lit "a", 2), (lit "b", 2)] := by decide
example : (termFrequencies .char [lit "ab a"]).1 = [(lit "a", 2), (lit "b", 1), ([SP], 1)] := by decide

/-- C15, from text to vocabulary: the table learned by the word and char schemes keeps the contract for the counts of the tokens
(of the characters), and its types have level 2 (word) or 0 (char). -/
theorem C15_learned {A : Acc} {k : Kind} {data : List Str} {toks : List (List Str)} (ht : List.Forall₂ Tokens data toks)
    (hk : k = .word ∨ k = .char) {vs mf : Int} {cov : Option A.F} {vocab : List Ty}
    (h : learnRaw A k data vs mf cov = .ok vocab) :
    ∃ tf : List (Str × Int), (tf.map (·.1)).Nodup ∧
      (∀ n f, (n, f) ∈ tf ↔
        n ∈ toks.flatMap (fun ws => if k = .word then ws else (List.intercalate [0x2581] ws).map fun c => [c]) ∧
        f = (toks.flatMap fun ws => if k = .word then ws else (List.intercalate [0x2581] ws).map fun c => [c]).count n) ∧
      VocabContract (if k = .word then 2 else 0) mf tf vocab := by
  have hnd : (Dict.keys (termFrequencies k data).1).Nodup := by
    rw [termFrequencies_count]; exact Dict.nodup_keys_count (by simp [Dict.keys]) _
  have hpos : ∀ p ∈ (termFrequencies k data).1, 1 ≤ p.2 := by
    rintro ⟨n, f⟩ hp
    rw [termFrequencies_count, mem_count_nil] at hp
    have := List.count_pos_iff.2 hp.1
    have h2 := hp.2
    simp only [h2]
    omega
  refine ⟨(termFrequencies k data).1, hnd, C15_counts data toks ht hk, ?_⟩
  rcases hk with rfl | rfl
  · exact C15_contract hnd hpos h
  · exact C15_contract hnd hpos h

example : ((learnRaw accExact .char [lit "ab a"] (-1) 1 none).toOption.map fun v => (v.drop 6).map fun t => (t.name, t.level, t.freq)) =
    some [(lit "a", 0, 2), (lit "b", 0, 1)] := by decide

/-! ## C16 -/

theorem credit_updateReserved {tf : Dict Str Int} (hpos : ∀ p ∈ tf, 0 ≤ p.2) {u : Int} (hu : 0 ≤ u) {lc : Option Int}
    (hl : 0 ≤ lc.getD 0) :
    (updateReserved tf u lc).map credit = reservedTypes.map fun t => reservedFreq tf u lc t.idx t.name := by
  simp only [updateReserved, List.map_map]
  apply List.map_congr_left
  intro t ht
  have h1 : t.freq = -1 := by
    revert t; decide
  have h0 : 0 ≤ (Dict.get? tf t.name).getD 0 := by
    cases hg : Dict.get? tf t.name with
    | none => simp
    | some v => exact hpos _ (Dict.mem_of_get? hg)
  simp only [Function.comp, credit]
  by_cases hz : reservedFreq tf u lc t.idx t.name = 0
  · rw [if_pos hz, if_pos h1, hz]
  · rw [if_neg hz]
    have : reservedFreq tf u lc t.idx t.name ≠ -1 := by
      simp only [reservedFreq]
      split <;> split <;> omega
    rw [if_neg this]

/-- C16: the credited frequencies add up to the number of tokens, plus the line count credited to each of
`<s>`, `</s>`, `<cls>` when it is given.  Holds for every coverage arithmetic, `min_freq` and `vocab_size`
(also for `0 < vocab_size < 6`). -/
theorem C16_mass {A : Acc} {level : Int} {tf : Dict Str Int} {cov : Option A.F} {lc : Option Int} {mf vs : Int}
    {vocab : List Ty} (hnd : (Dict.keys tf).Nodup) (hpos : ∀ p ∈ tf, 0 ≤ p.2) (hl : 0 ≤ lc.getD 0)
    (h : getInitVocab A level tf cov lc mf vs = .ok vocab) :
    total (vocab.map credit) = total (tf.map (·.2)) + 3 * lc.getD 0 := by
  obtain ⟨pre, cut, kept, rest, h1, _, hk, hpre, rfl⟩ := getInitVocab_ok hnd h
  have hall : sortByFreq (popReserved tf) = kept ++ (rest ++ cut) := by rw [h1, hpre, List.append_assoc]
  have hperm := sortByFreq_perm (popReserved tf)
  have hmem : ∀ p ∈ kept ++ (rest ++ cut), p ∈ tf := fun p hp =>
    ((mem_popReserved hnd p.1 p.2).1 (hperm.subset (hall ▸ hp))).1
  have hu : 0 ≤ isum ((rest ++ cut).map (·.2)) := isum_nonneg (by
    intro x hx
    obtain ⟨p, hp, rfl⟩ := List.mem_map.1 hx
    exact hpos p (hmem p (by simp only [List.mem_append] at hp ⊢; tauto)))
  rw [total_eq, total_eq, List.map_append, isum_append, credit_updateReserved hpos hu hl]
  have hcred : (kept.zipIdx.map fun (p, i) =>
      ({ name := p.1, level := level, idx := i + 6, freq := p.2, kids := [] } : Ty)).map credit = kept.map (·.2) := by
    rw [← zipIdx_types_freqs kept level 6]
    apply List.map_congr_left
    intro t ht
    obtain ⟨a, _, _⟩ := mem_zipIdx_types ht
    have := hpos (t.name, t.freq) (hmem (t.name, t.freq) (by simp [a]))
    simp only [credit]
    rw [if_neg (by simp only at this; omega)]
  rw [hcred]
  have hsum := isum_popReserved hnd
  have hp2 : isum (Dict.values (popReserved tf)) = isum (kept.map (·.2)) + isum ((rest ++ cut).map (·.2)) := by
    have := isum_perm (hperm.map (·.2))
    rw [hall, List.map_append, isum_append] at this
    exact this.symm
  have hres : isum (reservedTypes.map fun t => reservedFreq tf (isum ((rest ++ cut).map (·.2))) lc t.idx t.name) =
      isum (reservedNames.map fun n => (Dict.get? tf n).getD 0) + isum ((rest ++ cut).map (·.2)) + 3 * lc.getD 0 := by
    simp only [reservedTypes, reservedNames, List.zipIdx_cons, List.zipIdx_nil, List.map_cons, List.map_nil, reservedFreq, isum,
      List.foldr_cons, List.foldr_nil]
    simp
    omega
  have hv : isum (Dict.values tf) = isum (tf.map (·.2)) := rfl
  rw [hres, ← hv]
  omega

theorem credit_updateReserved_headless {tf : Dict Str Int} {u : Int} :
    (updateReserved tf u (some (-1))).map credit = reservedTypes.map fun t =>
      if reservedFreq tf u (some (-1)) t.idx t.name = -1 then 0 else reservedFreq tf u (some (-1)) t.idx t.name := by
  simp only [updateReserved, List.map_map]
  apply List.map_congr_left
  intro t ht
  have h1 : t.freq = -1 := by
    revert t; decide
  simp only [Function.comp, credit]
  by_cases hz : reservedFreq tf u (some (-1)) t.idx t.name = 0
  · rw [if_pos hz, if_pos h1, hz]; rfl
  · rw [if_neg hz]

/-- C16 when the number of lines is unknown (`line_count = -1`, as for a frequency file without header): one occurrence of each of
`<s>`, `</s>` and `<cls>` that occurs is lost, and nothing else. -/
theorem C16_headless {A : Acc} {level : Int} {tf : Dict Str Int} {cov : Option A.F} {mf vs : Int}
    {vocab : List Ty} (hnd : (Dict.keys tf).Nodup) (hpos : ∀ p ∈ tf, 1 ≤ p.2)
    (h : getInitVocab A level tf cov (some (-1)) mf vs = .ok vocab) :
    total (vocab.map credit) + ([lit "<s>", lit "</s>", lit "<cls>"].filter fun n => decide (n ∈ tf.map (·.1))).length =
      total (tf.map (·.2)) := by
  obtain ⟨pre, cut, kept, rest, h1, _, hk, hpre, rfl⟩ := getInitVocab_ok hnd h
  have hall : sortByFreq (popReserved tf) = kept ++ (rest ++ cut) := by rw [h1, hpre, List.append_assoc]
  have hperm := sortByFreq_perm (popReserved tf)
  have hmem : ∀ p ∈ kept ++ (rest ++ cut), p ∈ tf := fun p hp =>
    ((mem_popReserved hnd p.1 p.2).1 (hperm.subset (hall ▸ hp))).1
  have hu : 0 ≤ isum ((rest ++ cut).map (·.2)) := isum_nonneg (by
    intro x hx
    obtain ⟨p, hp, rfl⟩ := List.mem_map.1 hx
    have := hpos p (hmem p (by simp only [List.mem_append] at hp ⊢; tauto))
    omega)
  rw [total_eq, total_eq, List.map_append, isum_append, credit_updateReserved_headless]
  have hcred : (kept.zipIdx.map fun (p, i) =>
      ({ name := p.1, level := level, idx := i + 6, freq := p.2, kids := [] } : Ty)).map credit = kept.map (·.2) := by
    rw [← zipIdx_types_freqs kept level 6]
    apply List.map_congr_left
    intro t ht
    obtain ⟨a, _, _⟩ := mem_zipIdx_types ht
    have := hpos (t.name, t.freq) (hmem (t.name, t.freq) (by simp [a]))
    simp only [credit]
    rw [if_neg (by simp only at this; omega)]
  rw [hcred]
  have hsum := isum_popReserved hnd
  have hp2 : isum (Dict.values (popReserved tf)) = isum (kept.map (·.2)) + isum ((rest ++ cut).map (·.2)) := by
    have := isum_perm (hperm.map (·.2))
    rw [hall, List.map_append, isum_append] at this
    exact this.symm
  have hget : ∀ n : Str, (n ∈ tf.map (·.1) ∧ 1 ≤ (Dict.get? tf n).getD 0) ∨ (n ∉ tf.map (·.1) ∧ (Dict.get? tf n).getD 0 = 0) := by
    intro n
    cases hg : Dict.get? tf n with
    | none =>
      refine Or.inr ⟨fun hm => ?_, rfl⟩
      obtain ⟨q, hq, rfl⟩ := List.mem_map.1 hm
      rw [Dict.get?_of_mem hnd hq] at hg
      cases hg
    | some v =>
      have := Dict.mem_of_get? hg
      exact Or.inl ⟨List.mem_map.2 ⟨_, this, rfl⟩, hpos _ this⟩
  have hv : isum (Dict.values tf) = isum (tf.map (·.2)) := rfl
  rw [← hv]
  generalize isum ((rest ++ cut).map (·.2)) = u at *
  have key : ∀ n : Str, (if (Dict.get? tf n).getD 0 + -1 = -1 then (0 : Int) else (Dict.get? tf n).getD 0 + -1) +
      (if n ∈ tf.map (·.1) then 1 else 0 : Nat) = (Dict.get? tf n).getD 0 := by
    intro n
    rcases hget n with ⟨a, b⟩ | ⟨a, b⟩
    · rw [if_neg (by omega), if_pos a]; omega
    · rw [b, if_neg a]; rfl
  have hnn : ∀ n : Str, 0 ≤ (Dict.get? tf n).getD 0 := fun n => by rcases hget n with ⟨a, b⟩ | ⟨a, b⟩ <;> omega
  have hres : isum (reservedTypes.map fun t =>
        if reservedFreq tf u (some (-1)) t.idx t.name = -1 then 0 else reservedFreq tf u (some (-1)) t.idx t.name) +
      (([lit "<s>", lit "</s>", lit "<cls>"].filter fun n => decide (n ∈ tf.map (·.1))).length : Int) =
      isum (reservedNames.map fun n => (Dict.get? tf n).getD 0) + u := by
    have hlen : (([lit "<s>", lit "</s>", lit "<cls>"].filter fun n => decide (n ∈ tf.map (·.1))).length : Int) =
        (if lit "<s>" ∈ tf.map (·.1) then 1 else 0 : Nat) + (if lit "</s>" ∈ tf.map (·.1) then 1 else 0 : Nat) +
          (if lit "<cls>" ∈ tf.map (·.1) then 1 else 0 : Nat) := by
      simp only [List.filter_cons, List.filter_nil, decide_eq_true_eq]
      split <;> split <;> split <;> rfl
    have k1 := key (lit "<s>")
    have k2 := key (lit "</s>")
    have k3 := key (lit "<cls>")
    have n1 := hnn (lit "<pad>")
    have n2 := hnn (lit "<unk>")
    have n3 := hnn [SP]
    rw [hlen]
    have e : reservedTypes.map (fun t =>
        if reservedFreq tf u (some (-1)) t.idx t.name = -1 then 0 else reservedFreq tf u (some (-1)) t.idx t.name) =
      [(Dict.get? tf (lit "<pad>")).getD 0, (Dict.get? tf (lit "<unk>")).getD 0 + u,
        if (Dict.get? tf (lit "<s>")).getD 0 + -1 = -1 then 0 else (Dict.get? tf (lit "<s>")).getD 0 + -1,
        if (Dict.get? tf (lit "</s>")).getD 0 + -1 = -1 then 0 else (Dict.get? tf (lit "</s>")).getD 0 + -1,
        if (Dict.get? tf (lit "<cls>")).getD 0 + -1 = -1 then 0 else (Dict.get? tf (lit "<cls>")).getD 0 + -1,
        (Dict.get? tf [SP]).getD 0] := by
      have r : ∀ (i : Nat) (n : Str), reservedFreq tf u (some (-1)) i n = (Dict.get? tf n).getD 0 + (if i = 1 then u else 0) +
        (if i = 2 ∨ i = 3 ∨ i = 4 then -1 else 0) := fun _ _ => rfl
      have e0 : reservedTypes.map (fun t => (t.idx, t.name)) = [(0, lit "<pad>"), (1, lit "<unk>"), (2, lit "<s>"), (3, lit "</s>"),
        (4, lit "<cls>"), (5, [SP])] := by decide
      have := congrArg (List.map fun q : Nat × Str =>
        if reservedFreq tf u (some (-1)) q.1 q.2 = -1 then 0 else reservedFreq tf u (some (-1)) q.1 q.2) e0
      rw [List.map_map] at this
      refine this.trans ?_
      simp only [List.map_cons, List.map_nil, r]
      simp
      omega
    have e2 : reservedNames = [lit "<pad>", lit "<unk>", lit "<s>", lit "</s>", lit "<cls>", [SP]] := by decide
    rw [e, e2]
    simp only [List.map_cons, List.map_nil, isum, List.foldr_cons, List.foldr_nil]
    omega
  omega

example : (Dict.keys [(lit "a", (3 : Int)), (lit "<s>", 4), (lit "</s>", 1)]).Nodup ∧
    ((getInitVocab accExact Level.word [(lit "a", (3 : Int)), (lit "<s>", 4), (lit "</s>", 1)] none (some (-1)) 1 0).toOption.map
      fun v => v.map fun t => (t.name, t.freq)) = some [(lit "<pad>", -1), (lit "<unk>", -1), (lit "<s>", 3), (lit "</s>", -1),
        (lit "<cls>", -1), ([SP], -1), (lit "a", 3)] := by decide

/-- C16: `<unk>` is credited with its own occurrences and with exactly the counts of the terms left out. -/
theorem C16_unk {A : Acc} {level : Int} {tf : Dict Str Int} {cov : Option A.F} {lc : Option Int} {mf vs : Int}
    {vocab : List Ty} (hnd : (Dict.keys tf).Nodup) (hpos : ∀ p ∈ tf, 0 ≤ p.2)
    (h : getInitVocab A level tf cov lc mf vs = .ok vocab) :
    ∃ t, vocab[1]? = some t ∧ t.name = lit "<unk>" ∧
      credit t = total ((tf.filter fun p => decide (p.1 = lit "<unk>")).map (·.2)) +
        total ((tf.filter fun p => decide (p.1 ∉ names vocab)).map (·.2)) := by
  obtain ⟨pre, cut, kept, rest, h1, _, hk, hpre, rfl⟩ := getInitVocab_ok hnd h
  have hall : sortByFreq (popReserved tf) = kept ++ (rest ++ cut) := by rw [h1, hpre, List.append_assoc]
  have hperm := sortByFreq_perm (popReserved tf)
  have hmem : ∀ p ∈ kept ++ (rest ++ cut), p ∈ tf ∧ p.1 ∉ reservedNames := fun p hp =>
    ((mem_popReserved hnd p.1 p.2).1 (hperm.subset (hall ▸ hp)))
  have hu : 0 ≤ isum ((rest ++ cut).map (·.2)) := isum_nonneg (by
    intro x hx
    obtain ⟨p, hp, rfl⟩ := List.mem_map.1 hx
    exact hpos p (hmem p (by simp only [List.mem_append] at hp ⊢; tauto)).1)
  have hlen := updateReserved_length tf (isum ((rest ++ cut).map (·.2))) lc
  have hnodup : ((kept ++ (rest ++ cut)).map (·.1)).Nodup := by
    rw [← hall]; exact (hperm.map _).nodup_iff.2 (nodup_popReserved hnd)
  -- the terms left out
  have hout : (tf.filter fun p => decide (p.1 ∉ reservedNames ++ kept.map (·.1))).Perm (rest ++ cut) := by
    apply (List.perm_ext_iff_of_nodup _ _).2
    · intro p
      rw [List.mem_filter]
      constructor
      · rintro ⟨hp, hn⟩
        simp only [List.mem_append, not_or, decide_eq_true_eq] at hn
        have : p ∈ kept ++ (rest ++ cut) := by
          rw [← hall]; exact hperm.symm.subset ((mem_popReserved hnd p.1 p.2).2 ⟨hp, hn.1⟩)
        rcases List.mem_append.1 this with h | h
        · exact absurd (List.mem_map.2 ⟨p, h, rfl⟩) hn.2
        · exact h
      · intro hp
        have hm := hmem p (List.mem_append.2 (Or.inr hp))
        refine ⟨hm.1, ?_⟩
        simp only [List.mem_append, not_or, decide_eq_true_eq]
        refine ⟨hm.2, fun hk => ?_⟩
        rw [List.map_append, List.nodup_append] at hnodup
        exact hnodup.2.2 p.1 hk p.1 (List.mem_map.2 ⟨p, hp, rfl⟩) rfl
    · exact (List.Nodup.of_map _ hnd).filter _
    · rw [List.map_append, List.nodup_append] at hnodup
      exact List.Nodup.of_map _ hnodup.2.1
  have hown : isum ((tf.filter fun p => decide (p.1 = lit "<unk>")).map (·.2)) = (Dict.get? tf (lit "<unk>")).getD 0 := by
    generalize lit "<unk>" = n
    clear * - hnd
    induction tf with
    | nil => rfl
    | cons p tf ih =>
      obtain ⟨a, v⟩ := p
      simp only [Dict.keys, List.map_cons, List.nodup_cons] at hnd
      by_cases ha : a = n
      · subst ha
        have : tf.filter (fun p => decide (p.1 = a)) = [] := by
          rw [List.filter_eq_nil_iff]
          intro q hq
          have : q.1 ≠ a := fun e => hnd.1 (List.mem_map.2 ⟨q, hq, e⟩)
          simpa using this
        simp [Dict.get?, this, isum]
      · simp only [List.filter_cons, ha, decide_false, Bool.false_eq_true, if_false, Dict.get?]
        exact ih hnd.2
  have hu1 : (updateReserved tf (isum ((rest ++ cut).map (·.2))) lc)[1]? = some
      (if reservedFreq tf (isum ((rest ++ cut).map (·.2))) lc 1 (lit "<unk>") = 0 then
        ⟨lit "<unk>", -1, 1, -1, []⟩ else
        ⟨lit "<unk>", -1, 1, reservedFreq tf (isum ((rest ++ cut).map (·.2))) lc 1 (lit "<unk>"), []⟩) := rfl
  refine ⟨_, by rw [List.getElem?_append_left (by rw [hlen]; omega), hu1], ?_, ?_⟩
  · split <;> rfl
  · rw [names_reserved_append, total_eq, total_eq, hown, isum_perm (hout.map (·.2))]
    have hg : 0 ≤ (Dict.get? tf (lit "<unk>")).getD 0 := by
      cases hg : Dict.get? tf (lit "<unk>") with
      | none => simp
      | some v => exact hpos _ (Dict.mem_of_get? hg)
    have hr : reservedFreq tf (isum ((rest ++ cut).map (·.2))) lc 1 (lit "<unk>") =
        (Dict.get? tf (lit "<unk>")).getD 0 + isum ((rest ++ cut).map (·.2)) := by
      simp [reservedFreq]
    rw [hr]
    split
    · simp only [credit, if_true]; omega
    · simp only [credit]
      rw [if_neg (by omega)]

example : (getInitVocab accExact Level.word exTf none (some 2) 3 0).toOption.map (fun v => total (v.map credit)) = some (11 + 3 * 2) := by
  decide

/-! ## C17 -/

/-- C17, any arithmetic: the types kept are a prefix of the types in non-increasing order of frequency, each with its
count, and the returned unk count is the exact mass of the rest.  Missing: that the prefix is the shortest one reaching
the coverage, which depends on the arithmetic (exact: `C17_exact_partial`; binary64: `C17_float_refuted`). -/
theorem C17_prefix_partial (A : Acc) {types : Dict Str Int} (hnd : (Dict.keys types).Nodup) (hpos : ∀ p ∈ types, 1 ≤ p.2)
    {cov : A.F} (hv : A.valid cov = true) :
    ∃ kept rest, filterCoverage A types cov = .ok (kept, total (rest.map (·.2))) ∧ (kept ++ rest).Perm types ∧
      (kept ++ rest).Pairwise (fun a b => b.2 ≤ a.2) := by
  have hne : types ≠ [] → isum (Dict.values types) ≠ 0 := by
    intro hne
    cases types with
    | nil => exact absurd rfl hne
    | cons p l =>
      have h1 := hpos p (by simp)
      have h2 : 0 ≤ isum (Dict.values l) := isum_nonneg (by
        intro x hx
        obtain ⟨q, hq, rfl⟩ := List.mem_map.1 hx
        have := hpos q (by simp [hq])
        omega)
      simp only [Dict.values, List.map_cons, isum, List.foldr_cons] at h2 ⊢
      omega
  obtain ⟨k, _, _, h3, _⟩ := filterCoverage_prefix A hnd hne hv
  refine ⟨_, _, by rw [h3, total_eq], ?_, ?_⟩
  · rw [List.take_append_drop]; exact sortByFreq_perm _
  · rw [List.take_append_drop]; exact sortByFreq_sorted _

/-- `accExact.addRatio` written out -/
def addExact (tot : Int) (c : Int × Nat) (p : Str × Int) : Int × Nat := (c.1 * tot + p.2 * c.2, c.2 * tot.natAbs)

theorem addExact_fold (tot : Int) (htot : 0 < tot) (l : List (Str × Int)) : ∀ (c : Int × Nat), 0 < c.2 →
    0 < (l.foldl (addExact tot) c).2 ∧ (l.foldl (addExact tot) c).1 * tot * c.2 =
      (isum (l.map (·.2)) * c.2 + c.1 * tot) * (l.foldl (addExact tot) c).2 := by
  induction l with
  | nil =>
    intro c hc
    refine ⟨hc, ?_⟩
    simp [isum]
  | cons p l ih =>
    intro c hc
    have hc' : 0 < (addExact tot c p).2 := Nat.mul_pos hc (by omega)
    obtain ⟨h1, h2⟩ := ih (addExact tot c p) hc'
    refine ⟨h1, ?_⟩
    rw [List.foldl_cons]
    generalize hr : l.foldl (addExact tot) (addExact tot c p) = r at h1 h2 ⊢
    have e1 : (addExact tot c p).1 = c.1 * tot + p.2 * c.2 := rfl
    have e2 : ((addExact tot c p).2 : Int) = c.2 * tot := by
      show ((c.2 * tot.natAbs : Nat) : Int) = _
      rw [Int.natCast_mul, Int.natAbs_of_nonneg (by omega)]
    rw [e1, e2] at h2
    have e3 : isum ((p :: l).map (·.2)) = p.2 + isum (l.map (·.2)) := rfl
    rw [e3]
    have h3 : (r.1 * tot * c.2) * tot = (((p.2 + isum (l.map (·.2))) * c.2 + c.1 * tot) * r.2) * tot := by
      calc (r.1 * tot * c.2) * tot = r.1 * tot * (c.2 * tot) := by rw [Int.mul_assoc]
        _ = _ := h2
        _ = _ := by ring
    exact Int.eq_of_mul_eq_mul_right (by omega) h3

theorem accExact_ge (tot : Int) (htot : 0 < tot) (l : List (Str × Int)) (cov : Int × Nat) :
    accExact.ge (l.foldl (fun c p => accExact.addRatio c p.2 tot) accExact.zero) cov = true ↔
      cov.1 * tot ≤ isum (l.map (·.2)) * cov.2 := by
  obtain ⟨h1, h2⟩ := addExact_fold tot htot l (0, 1) (by decide)
  show decide (cov.1 * (l.foldl (addExact tot) (0, 1)).2 ≤ (l.foldl (addExact tot) (0, 1)).1 * cov.2) = true ↔ _
  generalize l.foldl (addExact tot) (0, 1) = r at h1 h2
  have h2' : r.1 * tot = isum (l.map (·.2)) * r.2 := by
    simpa using h2
  rw [decide_eq_true_iff]
  have hr : (0 : Int) < r.2 := by omega
  constructor
  · intro h
    have : cov.1 * r.2 * tot ≤ r.1 * cov.2 * tot := Int.mul_le_mul_of_nonneg_right h (by omega)
    have : (cov.1 * tot) * r.2 ≤ (isum (l.map (·.2)) * cov.2) * r.2 := by
      calc (cov.1 * tot) * r.2 = cov.1 * r.2 * tot := by ring
        _ ≤ r.1 * cov.2 * tot := this
        _ = (r.1 * tot) * cov.2 := by ring
        _ = _ := by rw [h2']; ring
    exact Int.le_of_mul_le_mul_right this hr
  · intro h
    have : (cov.1 * tot) * r.2 ≤ (isum (l.map (·.2)) * cov.2) * r.2 := Int.mul_le_mul_of_nonneg_right h (by omega)
    have : cov.1 * r.2 * tot ≤ r.1 * cov.2 * tot := by
      calc cov.1 * r.2 * tot = (cov.1 * tot) * r.2 := by ring
        _ ≤ (isum (l.map (·.2)) * cov.2) * r.2 := this
        _ = (isum (l.map (·.2)) * r.2) * cov.2 := by ring
        _ = _ := by rw [← h2']; ring
    exact Int.le_of_mul_le_mul_right this htot

/-- C17 in exact arithmetic: the types kept are the shortest prefix whose mass is at least `num/den` of the total
(`coverage = num/den`).  Missing: the code adds binary64 quotients, for which this is false (`C17_float_refuted`). -/
theorem C17_exact_partial {types : Dict Str Int} (hnd : (Dict.keys types).Nodup) (hpos : ∀ p ∈ types, 1 ≤ p.2)
    (hne : types ≠ []) {num den : Nat} (h0 : 0 < num) (h1 : num ≤ den) :
    ∃ kept rest, filterCoverage accExact types ((num : Int), den) = .ok (kept, total (rest.map (·.2))) ∧
      (kept ++ rest).Perm types ∧ (kept ++ rest).Pairwise (fun a b => b.2 ≤ a.2) ∧
      num * total (types.map (·.2)) ≤ den * total (kept.map (·.2)) ∧
      ∀ j, j < kept.length → den * total ((kept.take j).map (·.2)) < num * total (types.map (·.2)) := by
  have htot : 0 < isum (Dict.values types) := by
    cases types with
    | nil => exact absurd rfl hne
    | cons p l =>
      have h1 := hpos p (by simp)
      have h2 : 0 ≤ isum (Dict.values l) := isum_nonneg (by
        intro x hx
        obtain ⟨q, hq, rfl⟩ := List.mem_map.1 hx
        have := hpos q (by simp [hq])
        omega)
      simp only [Dict.values, List.map_cons, isum, List.foldr_cons] at h2 ⊢
      omega
  have hv : accExact.valid ((num : Int), den) = true := by
    show decide (0 < (num : Int) ∧ (num : Int) ≤ (den : Int)) = true
    rw [decide_eq_true_iff]; omega
  obtain ⟨k, hk, hk0, h3, h4, h5⟩ := filterCoverage_prefix accExact hnd (fun _ => by omega) hv
  have hlen := (sortByFreq_perm types).length_eq
  have htt : total (types.map (·.2)) = isum (Dict.values types) := by rw [total_eq]; rfl
  refine ⟨_, _, by rw [h3, total_eq], ?_, ?_, ?_, ?_⟩
  · rw [List.take_append_drop]; exact sortByFreq_perm _
  · rw [List.take_append_drop]; exact sortByFreq_sorted _
  · rw [htt, total_eq, Int.mul_comm (den : Int)]
    by_cases hkl : k < types.length
    · exact (accExact_ge _ htot _ ((num : Int), den)).1 (h5 hkl)
    · rw [List.take_of_length_le (by omega)]
      have : isum ((sortByFreq types).map (·.2)) = isum (Dict.values types) := isum_perm ((sortByFreq_perm types).map _)
      rw [this, Int.mul_comm (isum _)]
      exact Int.mul_le_mul_of_nonneg_right (by omega) (by omega)
  · intro j hj
    rw [List.length_take] at hj
    rw [List.take_take, Nat.min_eq_left (by omega), htt, total_eq, Int.mul_comm (den : Int)]
    by_cases hj0 : j = 0
    · subst hj0
      simp only [List.take_zero, List.map_nil, isum, List.foldr_nil, Int.zero_mul]
      exact Int.mul_pos (by omega) htot
    · have := h4 j (by omega) (by omega)
      have h6 := (accExact_ge _ htot ((sortByFreq types).take j) ((num : Int), den))
      rw [this] at h6
      simp only [Bool.false_eq_true, false_iff, not_le] at h6
      exact h6

example : filterCoverage accExact [(lit "a", 1), (lit "b", 5), (lit "c", 2)] (3, 4) =
    .ok ([(lit "b", 5), (lit "c", 2)], 1) := by decide

/-- twelve types of frequency 1 -/
def exTwelve : Dict Str Int := (List.range 12).map fun i => ([97 + i], 1)

/-- C17 is false in binary64: with twelve types of frequency 1 and coverage 0.5 (exactly representable), six types have
mass exactly 1/2, but seven are kept, since the float sum of six times 1/12 is below 0.5. -/
theorem C17_float_refuted : ∃ (types : Dict Str Int) (kept : Dict Str Int) (unk : Int), (Dict.keys types).Nodup ∧
    (∀ p ∈ types, 1 ≤ p.2) ∧ filterCoverage accF64 types (⟨1, -1⟩ : Dy) = .ok (kept, unk) ∧
    total (types.map (·.2)) ≤ 2 * total ((kept.take 6).map (·.2)) ∧ kept.length = 7 := by
  refine ⟨exTwelve, exTwelve.take 7, 5, ?_, ?_, ?_, ?_, ?_⟩ <;> decide

/-! ## C18 -/

theorem leName_total : Std.Total (fun a b : Str × Int => a.1 ≤ b.1) := ⟨fun a b => le_total a.1 b.1⟩
theorem leName_trans : IsTrans (Str × Int) (fun a b => a.1 ≤ b.1) := ⟨fun _ _ _ h1 h2 => le_trans h1 h2⟩

theorem sortByName_sorted (d : Dict Str Int) : (d.insertionSort (fun a b => a.1 ≤ b.1)).Pairwise (fun a b => a.1 ≤ b.1) := by
  have := leName_total
  have := leName_trans
  exact List.pairwise_insertionSort _ _

/-- labels of the data: the lines without surrounding whitespace -/
theorem learnPieces_class (data : List Str) : data.flatMap (learnPieces .clasz) = data.map strip := by
  induction data with
  | nil => rfl
  | cons l data ih => rw [List.flatMap_cons, ih, List.map_cons]; simp [learnPieces, strip_strip]

/-- C18: each distinct label once, in increasing code-point order, with its number of occurrences, at indices 0..n-1. -/
theorem C18_class_vocab {A : Acc} {data : List Str} {vs mf : Int} {cov : Option A.F} {vocab : List Ty}
    (h : learnRaw A .clasz data vs mf cov = .ok vocab) :
    Indexed vocab ∧ (names vocab).Pairwise (· < ·) ∧ (∀ n, n ∈ names vocab ↔ n ∈ data.map strip) ∧
      ∀ t ∈ vocab, t.freq = ((data.map strip).count t.name : Nat) ∧ t.level = 0 ∧ t.kids = [] := by
  simp only [learnRaw, Except.ok.injEq] at h
  subst h
  have hcnt := termFrequencies_count .clasz data
  rw [learnPieces_class] at hcnt
  have hnd := termFrequencies_nodup .clasz data
  generalize (termFrequencies .clasz data).1 = tf at hcnt hnd
  have hperm : (tf.insertionSort (fun a b => a.1 ≤ b.1)).Perm tf := List.perm_insertionSort _ _
  have hnames : names (classInitVocab tf) = (tf.insertionSort (fun a b => a.1 ≤ b.1)).map (·.1) :=
    zipIdx_types_names _ Level.clasz 0
  refine ⟨?_, ?_, ?_, ?_⟩
  · intro i t ht
    simp only [classInitVocab, List.getElem?_map, List.getElem?_zipIdx, Option.map_map, Option.map_eq_some_iff] at ht
    obtain ⟨p, _, rfl⟩ := ht
    simp
  · rw [hnames]
    have h1 : ((tf.insertionSort (fun a b => a.1 ≤ b.1)).map (·.1)).Pairwise (· ≤ ·) :=
      List.pairwise_map.2 (sortByName_sorted tf)
    have h2 : ((tf.insertionSort (fun a b => a.1 ≤ b.1)).map (·.1)).Pairwise (· ≠ ·) := (hperm.map _).nodup_iff.2 hnd
    exact (h1.and h2).imp fun ⟨a, b⟩ => lt_of_le_of_ne a b
  · intro n
    rw [hnames, (hperm.map _).mem_iff, hcnt]
    have := Dict.mem_keys_count ([] : Dict Str Int) (data.map strip) n
    simpa [Dict.keys] using this
  · intro t ht
    obtain ⟨a, b, c⟩ := mem_zipIdx_types (o := 0) ht
    have := hperm.subset a
    rw [hcnt, mem_count_nil] at this
    exact ⟨this.2, b, c⟩

/-- class vocabularies do not depend on the order of the counts -/
theorem classInitVocab_perm {d1 d2 : Dict Str Int} (n2 : (Dict.keys d2).Nodup) (hperm : d1.Perm d2) : classInitVocab d1 = classInitVocab d2 := by
  have : d1.insertionSort (fun a b => a.1 ≤ b.1) = d2.insertionSort (fun a b => a.1 ≤ b.1) := by
    have p1 : (d1.insertionSort (fun a b => a.1 ≤ b.1)).Perm d1 := List.perm_insertionSort _ _
    have p2 : (d2.insertionSort (fun a b => a.1 ≤ b.1)).Perm d2 := List.perm_insertionSort _ _
    refine List.Perm.eq_of_pairwise (le := fun a b => a.1 ≤ b.1) ?_ (sortByName_sorted _) (sortByName_sorted _)
      (p1.trans (hperm.trans p2.symm))
    intro a b ha hb hab hba
    have hk : a.1 = b.1 := le_antisymm hab hba
    have ha := hperm.subset (p1.subset ha)
    have hb := p2.subset hb
    have e1 := Dict.get?_of_mem n2 ha
    have e2 := Dict.get?_of_mem n2 hb
    rw [hk, e2] at e1
    exact Prod.ext hk (Option.some.inj e1).symm
  simp only [classInitVocab, this]

/-- C18: the order of the data is irrelevant. -/
theorem C18_class_order {A : Acc} {data data' : List Str} (hp : data.Perm data') (vs mf : Int) (cov : Option A.F) :
    learnRaw A .clasz data vs mf cov = learnRaw A .clasz data' vs mf cov := by
  simp only [learnRaw, Except.ok.injEq]
  have h1 := termFrequencies_count .clasz data
  have h2 := termFrequencies_count .clasz data'
  have n1 := termFrequencies_nodup .clasz data
  have n2 := termFrequencies_nodup .clasz data'
  rw [learnPieces_class] at h1 h2
  generalize (termFrequencies .clasz data).1 = d1 at h1 n1
  generalize (termFrequencies .clasz data').1 = d2 at h2 n2
  apply classInitVocab_perm n2
  apply (List.perm_ext_iff_of_nodup (List.Nodup.of_map _ n1) (List.Nodup.of_map _ n2)).2
  rintro ⟨n, f⟩
  rw [h1, h2, mem_count_nil, mem_count_nil, (hp.map strip).mem_iff, (hp.map strip).count_eq]

example : learnRaw accExact .clasz [lit "dog", lit " cat\n", lit "dog", lit "ant"] 0 0 none =
    .ok [⟨lit "ant", 0, 0, 1, []⟩, ⟨lit "cat", 0, 1, 1, []⟩, ⟨lit "dog", 0, 2, 2, []⟩] := by decide

/-! ## C10 -/

/-- C10: a label seen in training round-trips (without its surrounding whitespace).  Missing: unseen labels,
see `C10_unseen_refuted`. -/
theorem C10_seen_partial {A : Acc} {data : List Str} {vs mf : Int} {cov : Option A.F} {vocab : List Ty} {s : Scheme}
    (h : learnRaw A .clasz data vs mf cov = .ok vocab) (hs : Scheme.make .clasz vocab = .ok s)
    {label : Str} (hl : strip label ∈ data.map strip) :
    ∃ ids, s.encode label = .ok ids ∧ s.decode ids = .ok (strip label) := by
  obtain ⟨_, _, hmem, _⟩ := C18_class_vocab h
  obtain ⟨h1, h2, h3, h4⟩ := mkInvertible_ok (k := .clasz) hs
  subst h1
  have hin := (hmem (strip label)).2 hl
  obtain ⟨i, hi⟩ := List.mem_iff_getElem?.1 hin
  have hidx := idxOf?_eq_of_nodup h4 hi
  refine ⟨[(i : Int)], ?_, ?_⟩
  · simp only [Scheme.encode, Scheme.encodeStr, h2]
    rw [idsOf_eq (by rw [h2]; decide) h3]
    simp only [List.map_cons, List.map_nil, Scheme.idOf, Scheme.idxToStr]
    rw [hidx]
  · simp only [names, List.getElem?_map, Option.map_eq_some_iff] at hi
    obtain ⟨t, ht, hn⟩ := hi
    simp [Scheme.decode, namesOf, pyIndex_some ht, Scheme.decodeStr, h2, join, hn]

/-- C10, what happens to every unseen label: it is encoded as −1 and decoded as the last (greatest) label. -/
theorem C10_unseen_is_last {A : Acc} {data : List Str} {vs mf : Int} {cov : Option A.F} {vocab : List Ty} {s : Scheme}
    (h : learnRaw A .clasz data vs mf cov = .ok vocab) (hs : Scheme.make .clasz vocab = .ok s) (hne : data ≠ [])
    {label : Str} (hl : strip label ∉ data.map strip) :
    ∃ last, last ∈ data.map strip ∧ (∀ x ∈ data.map strip, x ≤ last) ∧ s.encode label = .ok [-1] ∧ s.decode [-1] = .ok last := by
  obtain ⟨_, hsort, hmem, _⟩ := C18_class_vocab h
  obtain ⟨h1, h2, h3, h4⟩ := mkInvertible_ok (k := .clasz) hs
  subst h1
  have hnot : strip label ∉ names s.table := fun hm => hl ((hmem _).1 hm)
  have hne' : names s.table ≠ [] := by
    obtain ⟨x, hx⟩ := List.exists_mem_of_ne_nil _ hne
    intro e
    have := (hmem (strip x)).2 (List.mem_map.2 ⟨x, hx, rfl⟩)
    rw [e] at this; simp at this
  refine ⟨(names s.table).getLast hne', (hmem _).1 (List.getLast_mem hne'), ?_, ?_, ?_⟩
  · intro x hx
    have hx := (hmem x).2 hx
    have hsplit := List.dropLast_append_getLast hne'
    rw [← hsplit] at hx hsort
    rcases List.mem_append.1 hx with hx | hx
    · exact le_of_lt ((List.pairwise_append.1 hsort).2.2 x hx _ (by simp))
    · simp only [List.mem_singleton] at hx; exact le_of_eq hx
  · simp only [Scheme.encode, Scheme.encodeStr, h2]
    rw [idsOf_eq (by rw [h2]; decide) h3]
    simp only [List.map_cons, List.map_nil, Scheme.idOf, Scheme.idxToStr]
    have : List.idxOf? (strip label) (s.table.map (·.name)) = none := List.idxOf?_eq_none_iff.2 hnot
    rw [this]
    simp [Scheme.unk, h2]
  · have hlen : 0 < s.table.length := by
      rw [← List.length_map (f := fun t : Ty => t.name)]; exact List.length_pos_iff.2 hne'
    have hidx : pyIndex s.table (-1) = .ok s.table[s.table.length - 1] := by
      simp only [pyIndex]
      have e1 : ((-1 : Int) < 0) := by omega
      have e2 : ¬ ((-1 : Int) + s.table.length < 0) := by omega
      simp only [e1, if_true, e2, if_false]
      have e3 : ((-1 : Int) + s.table.length).toNat = s.table.length - 1 := by omega
      rw [e3, List.getElem?_eq_getElem (by omega)]
    simp [Scheme.decode, namesOf, hidx, Scheme.decodeStr, h2, join, names, List.getLast_eq_getElem]

/-- C10: exactly the labels that come back: those equal, up to surrounding blanks, to a label of the training data. -/
theorem C10_iff {A : Acc} {data : List Str} {vs mf : Int} {cov : Option A.F} {vocab : List Ty} {s : Scheme}
    (h : learnRaw A .clasz data vs mf cov = .ok vocab) (hs : Scheme.make .clasz vocab = .ok s) (hne : data ≠ []) (label : Str) :
    (∃ ids, s.encode label = .ok ids ∧ s.decode ids = .ok (strip label)) ↔ strip label ∈ data.map strip := by
  refine ⟨?_, C10_seen_partial h hs⟩
  rintro ⟨ids, h1, h2⟩
  by_contra hl
  obtain ⟨last, g1, _, g2, g3⟩ := C10_unseen_is_last h hs hne hl
  rw [g2] at h1
  cases h1
  rw [g3] at h2
  cases h2
  exact hl g1

/-- C10 is false: a scheme learned from the labels "cat" and "dog" encodes the unseen label "bird" and decodes it as "dog". -/
theorem C10_unseen_refuted : ∃ (data : List Str) (vocab : List Ty) (s : Scheme) (label : Str) (ids : List Int),
    learnRaw accExact .clasz data 0 0 none = .ok vocab ∧ Scheme.make .clasz vocab = .ok s ∧
    strip label ∉ data.map strip ∧ s.encode label = .ok ids ∧ s.decode ids = .ok (lit "dog") := by
  refine ⟨[lit "cat", lit "dog"], [⟨lit "cat", 0, 0, 1, []⟩, ⟨lit "dog", 0, 1, 1, []⟩],
    ⟨.clasz, [⟨lit "cat", 0, 0, 1, []⟩, ⟨lit "dog", 0, 1, 1, []⟩], [(lit "cat", 0), (lit "dog", 1)], Trie.empty⟩,
    lit "bird", [-1], ?_, ?_, ?_, ?_, ?_⟩
  · decide
  · simp [Scheme.make, mkInvertible, strToIdxLast, Dict.set, show lit "cat" ≠ lit "dog" by decide]
  · decide
  · decide
  · decide

example : (withScheme .clasz [⟨lit "cat", 0, 0, 1, []⟩, ⟨lit "dog", 0, 1, 1, []⟩] fun s => s.encode (lit " dog\n")) = .ok [1] := by
  decide

/-! ## C19 -/

theorem validateReserved_of_names {tbl : List Ty} (h : (names tbl).take 6 = reservedNames) : validateReserved tbl = .ok () := by
  have hgo : ∀ (l : List Str) (i : Nat), (∀ j, (hj : j < l.length) → (names tbl)[i + j]? = some l[j]) →
      validateReserved.go tbl l i = .ok () := by
    intro l
    induction l with
    | nil => intro i _; rfl
    | cons n l ih =>
      intro i hi
      have h0 := hi 0 (by simp)
      simp only [names, List.getElem?_map, Nat.add_zero, Option.map_eq_some_iff] at h0
      obtain ⟨t, ht, hn⟩ := h0
      simp only [List.getElem_cons_zero] at hn
      simp only [validateReserved.go, ht, hn, if_true]
      apply ih
      intro j hj
      have := hi (j + 1) (by simpa using hj)
      rw [← Nat.add_assoc, Nat.add_right_comm] at this
      simpa using this
  apply hgo reservedNames 0
  intro j hj
  have hj6 : j < 6 := by simpa [reservedNames] using hj
  have := congrArg (fun l => l[j]?) h
  simp only [List.getElem?_take_of_lt hj6] at this
  rw [Nat.zero_add, this, List.getElem?_eq_getElem hj]

/-- C19: for every corpus and every option (coverage within (0, 1] if given), word, char, class and byte learning succeed
and the scheme's constructor accepts the table. -/
theorem C19_learned_accepted (A : Acc) (k : Kind) (hk : k ≠ .bpe) (data : List Str) (vs mf : Int) (cov : Option A.F)
    (hv : ∀ c, cov = some c → A.valid c = true) :
    ∃ vocab s, learnRaw A k data vs mf cov = .ok vocab ∧ Scheme.make k vocab = .ok s ∧ s.kind = k := by
  have hgen : ∀ (k' : Kind) (level : Int), ∃ vocab, getInitVocab A level (termFrequencies k' data).1 cov
      (some (termFrequencies k' data).2) mf vs = .ok vocab ∧ (names vocab).Nodup ∧ validateReserved vocab = .ok () := by
    intro k' level
    have hnd := termFrequencies_nodup k' data
    have hcnt := termFrequencies_count k' data
    have hpos : ∀ p ∈ (termFrequencies k' data).1, 1 ≤ p.2 := by
      rintro ⟨n, f⟩ hp
      rw [hcnt, mem_count_nil] at hp
      have := List.count_pos_iff.2 hp.1
      simp only [hp.2]; omega
    generalize (termFrequencies k' data).1 = tf at hnd hpos
    have hex : ∃ vocab, getInitVocab A level tf cov (some (termFrequencies k' data).2) mf vs = .ok vocab := by
      simp only [getInitVocab]
      cases cov with
      | none => exact ⟨_, rfl⟩
      | some c =>
        obtain ⟨kept, rest, hf, _⟩ := C17_prefix_partial A (nodup_popReserved hnd)
          (fun p hp => hpos p ((popReserved_sublist tf).subset hp)) (hv c rfl)
        simp only [hf]; exact ⟨_, rfl⟩
    obtain ⟨vocab, h⟩ := hex
    refine ⟨vocab, h, (C15_contract hnd hpos h).distinct, ?_⟩
    apply validateReserved_of_names
    obtain ⟨_, _, kept, _, _, _, _, _, rfl⟩ := getInitVocab_ok hnd h
    rw [names_reserved_append]
    exact List.take_left' rfl
  cases k with
  | bpe => exact absurd rfl hk
  | word =>
    obtain ⟨vocab, h1, h2, h3⟩ := hgen .word Level.word
    obtain ⟨s, hs⟩ := mkInvertible_of_nodup .word h2
    exact ⟨vocab, s, h1, by simp only [Scheme.make, h3, hs], (mkInvertible_ok hs).2.1⟩
  | char =>
    obtain ⟨vocab, h1, h2, h3⟩ := hgen .char Level.char
    obtain ⟨s, hs⟩ := mkInvertible_of_nodup .char h2
    exact ⟨vocab, s, h1, by simp only [Scheme.make, h3, hs], (mkInvertible_ok hs).2.1⟩
  | clasz =>
    have h : learnRaw A .clasz data vs mf cov = .ok (classInitVocab (termFrequencies .clasz data).1) := rfl
    obtain ⟨s, hs⟩ := mkInvertible_of_nodup .clasz ((C18_class_vocab h).2.1.imp fun h => ne_of_lt h)
    exact ⟨_, s, h, hs, (mkInvertible_ok hs).2.1⟩
  | byte =>
    obtain ⟨s, hs⟩ := mkInvertible_of_nodup .byte byteVocab_nodup
    refine ⟨byteVocab, s, rfl, ?_, (mkInvertible_ok hs).2.1⟩
    have : byteVocab.isEmpty = false := by simp [byteVocab]
    simp only [Scheme.make, this, Bool.false_eq_true, if_false, hs]

example : (match learnRaw accExact .word [lit "a <unk> b", lit "</s> a"] 0 1 (some (9, 10)) with
    | .ok v => (match Scheme.make .word v with | .ok s => s.encode (lit "b a </s>") | .error e => .error e)
    | .error e => .error e) = .ok [7, 6, 3] := by decide

end Verif
