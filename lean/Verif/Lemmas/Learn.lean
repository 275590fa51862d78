import Verif.Model.Learn
import Verif.Lemmas.Dict
import Verif.Lemmas.Str
import Mathlib.Data.List.Nodup
import Mathlib.Data.List.Perm.Lattice
/-! # Lemmas on learning -/

namespace Verif

theorem isum_eq_sum (l : List Int) : isum l = l.sum := by
  induction l with
  | nil => rfl
  | cons a l ih => simp only [isum, List.foldr_cons, List.sum_cons] at ih ⊢; rw [ih]

theorem isum_append (a b : List Int) : isum (a ++ b) = isum a + isum b := by simp [isum_eq_sum]

theorem isum_perm {a b : List Int} (h : a.Perm b) : isum a = isum b := by
  induction h with
  | nil => rfl
  | cons x _ ih => simp only [isum, List.foldr_cons] at ih ⊢; rw [ih]
  | swap x y l => simp only [isum, List.foldr_cons]; omega
  | trans _ _ ih1 ih2 => exact ih1.trans ih2

theorem isum_nonneg {l : List Int} (h : ∀ x ∈ l, 0 ≤ x) : 0 ≤ isum l := by
  induction l with
  | nil => simp [isum]
  | cons a l ih =>
    have := ih (fun x hx => h x (by simp [hx]))
    have := h a (by simp)
    simp only [isum, List.foldr_cons] at *
    omega

/-! ## sorting -/

theorem sortByFreq_perm (d : Dict Str Int) : (sortByFreq d).Perm d := List.perm_insertionSort _ _

theorem sortByFreq_sorted (d : Dict Str Int) : (sortByFreq d).Pairwise (fun a b => b.2 ≤ a.2) := by
  have : Std.Total (fun a b : Str × Int => b.2 ≤ a.2) := ⟨fun a b => Int.le_total _ _⟩
  have : IsTrans (Str × Int) (fun a b => b.2 ≤ a.2) := ⟨fun a b c h1 h2 => Int.le_trans h2 h1⟩
  exact List.pairwise_insertionSort _ _

theorem sortByFreq_of_sorted {d : Dict Str Int} (h : d.Pairwise (fun a b => b.2 ≤ a.2)) : sortByFreq d = d :=
  h.insertionSort_eq

/-! ## coverage -/

theorem set_append_new {d : Dict Str Int} {k : Str} (h : k ∉ Dict.keys d) (v : Int) : Dict.set d k v = d ++ [(k, v)] := by
  induction d with
  | nil => rfl
  | cons p d ih =>
    obtain ⟨k', v'⟩ := p
    simp only [Dict.keys, List.map_cons, List.mem_cons, not_or] at h
    have hne : ¬ k' = k := fun e => h.1 e.symm
    simp only [Dict.set, hne, if_false, List.cons_append]
    rw [ih h.2]

/-- whatever the arithmetic, the loop keeps a prefix; when it stops early the accumulated value passed the test there
and nowhere before -/
theorem coverLoop_prefix (A : Acc) {tot : Int} (htot : tot ≠ 0) (cov : A.F) :
    ∀ (l : List (Str × Int)) (cum : A.F) (inc : Dict Str Int), (inc ++ l).map (·.1) |>.Nodup →
      ∃ k, k ≤ l.length ∧ coverLoop A tot cov l cum inc = .ok (inc ++ l.take k) ∧ (l ≠ [] → 0 < k) ∧
        (∀ j, 0 < j → j < k → A.ge ((l.take j).foldl (fun c p => A.addRatio c p.2 tot) cum) cov = false) ∧
        (k < l.length → A.ge ((l.take k).foldl (fun c p => A.addRatio c p.2 tot) cum) cov = true) := by
  intro l
  induction l with
  | nil => intro cum inc _; exact ⟨0, Nat.le_refl _, by simp [coverLoop], by simp, by simp, by simp⟩
  | cons p l ih =>
    obtain ⟨t, f⟩ := p
    intro cum inc hnd
    have hnew : t ∉ Dict.keys inc := by
      rw [List.map_append, List.nodup_append] at hnd
      intro hm
      exact hnd.2.2 t hm t (by simp) rfl
    simp only [coverLoop, htot, if_false]
    rw [set_append_new hnew]
    by_cases hge : A.ge (A.addRatio cum f tot) cov = true
    · refine ⟨1, by simp, by simp [hge], by simp, ?_, ?_⟩
      · intro j h1 h2; omega
      · intro _; simpa using hge
    · rw [if_neg hge]
      obtain ⟨k, h1, h2, h3, h4, h5⟩ := ih (A.addRatio cum f tot) (inc ++ [(t, f)]) (by simpa using hnd)
      refine ⟨k + 1, by simpa using h1, ?_, by simp, ?_, ?_⟩
      · rw [h2]; simp
      · intro j hj1 hj2
        cases j with
        | zero => omega
        | succ j =>
          rw [List.take_succ_cons, List.foldl_cons]
          by_cases hj : j = 0
          · subst hj; simpa using hge
          · exact h4 j (by omega) (by omega)
      · intro hk
        rw [List.take_succ_cons, List.foldl_cons]
        exact h5 (by simpa using hk)

theorem filter_not_mem_take {l : List (Str × Int)} (hnd : (l.map (·.1)).Nodup) (k : Nat) :
    (l.filter fun p => !Dict.mem (l.take k) p.1) = l.drop k := by
  have h1 : (l.take k).filter (fun p => !Dict.mem (l.take k) p.1) = [] := by
    rw [List.filter_eq_nil_iff]
    intro p hp
    have : Dict.mem (l.take k) p.1 = true := (Dict.mem_iff _ _).2 (List.mem_map.2 ⟨p, hp, rfl⟩)
    simp [this]
  have h2 : (l.drop k).filter (fun p => !Dict.mem (l.take k) p.1) = l.drop k := by
    rw [List.filter_eq_self]
    intro p hp
    have : ¬ Dict.mem (l.take k) p.1 = true := by
      rw [Dict.mem_iff]
      intro hm
      have hnd' := hnd
      rw [← List.take_append_drop k l, List.map_append, List.nodup_append] at hnd'
      exact hnd'.2.2 p.1 hm p.1 (List.mem_map.2 ⟨p, hp, rfl⟩) rfl
    simp [this]
  conv_lhs => rw [show l = l.take k ++ l.drop k from (List.take_append_drop k l).symm]
  rw [List.filter_append]
  rw [List.take_append_drop]
  rw [h1, h2, List.nil_append]

theorem filterCoverage_prefix (A : Acc) {types : Dict Str Int} (hnd : (Dict.keys types).Nodup)
    (htot : types ≠ [] → isum (Dict.values types) ≠ 0) {cov : A.F} (hv : A.valid cov = true) :
    ∃ k, k ≤ types.length ∧ (types ≠ [] → 0 < k) ∧
      filterCoverage A types cov =
        .ok ((sortByFreq types).take k, isum (((sortByFreq types).drop k).map (·.2))) ∧
      (∀ j, 0 < j → j < k → A.ge (((sortByFreq types).take j).foldl
        (fun c p => A.addRatio c p.2 (isum (Dict.values types))) A.zero) cov = false) ∧
      (k < types.length → A.ge (((sortByFreq types).take k).foldl
        (fun c p => A.addRatio c p.2 (isum (Dict.values types))) A.zero) cov = true) := by
  have hperm := sortByFreq_perm types
  have hnd' : ((sortByFreq types).map (·.1)).Nodup := (hperm.map _).nodup_iff.2 hnd
  have hlen := hperm.length_eq
  by_cases hne : types = []
  · subst hne
    exact ⟨0, by simp, by simp, by simp [filterCoverage, hv, sortByFreq, coverLoop, isum], by simp, by simp⟩
  · obtain ⟨k, h1, h2, h3, h4, h5⟩ := coverLoop_prefix A (htot hne) cov (sortByFreq types) A.zero [] (by simpa using hnd')
    refine ⟨k, by omega, fun _ => h3 (by intro e; rw [e] at hlen; exact hne (List.length_eq_zero_iff.1 hlen.symm)), ?_, h4, ?_⟩
    · simp only [filterCoverage, hv, if_true, h2, List.nil_append]
      rw [filter_not_mem_take hnd']
    · intro hk; exact h5 (by omega)

theorem filterCoverage_zero (A : Acc) {types : Dict Str Int} (hne : types ≠ [])
    (htot : isum (Dict.values types) = 0) {cov : A.F} (hv : A.valid cov = true) :
    filterCoverage A types cov = .error .zeroDiv := by
  have hlen := (sortByFreq_perm types).length_eq
  cases hs : sortByFreq types with
  | nil => rw [hs] at hlen; exact absurd (List.length_eq_zero_iff.1 hlen.symm) hne
  | cons p l => simp [filterCoverage, hv, hs, htot, coverLoop]

/-! ## reserved names -/

theorem nodup_reservedNames : reservedNames.Nodup := by decide

theorem get?_foldl_erase (ns : List Str) : ∀ (d : Dict Str Int), (Dict.keys d).Nodup → ∀ n,
    Dict.get? (ns.foldl (fun d n => Dict.erase d n) d) n = if n ∈ ns then none else Dict.get? d n := by
  induction ns with
  | nil => intro d _ n; simp
  | cons m ns ih =>
    intro d hd n
    rw [List.foldl_cons, ih _ (Dict.nodup_keys_erase hd m), Dict.get?_erase hd]
    by_cases h : n ∈ ns
    · simp [h]
    · by_cases hm : m = n
      · subst hm; simp
      · have : ¬ n = m := fun e => hm e.symm
        simp [h, hm, this]

theorem get?_popReserved {tf : Dict Str Int} (h : (Dict.keys tf).Nodup) (n : Str) :
    Dict.get? (popReserved tf) n = if n ∈ reservedNames then none else Dict.get? tf n := get?_foldl_erase _ tf h n

theorem nodup_foldl_erase (ns : List Str) : ∀ (d : Dict Str Int), (Dict.keys d).Nodup →
    (Dict.keys (ns.foldl (fun d n => Dict.erase d n) d)).Nodup := by
  induction ns with
  | nil => intro d h; exact h
  | cons m ns ih => intro d h; exact ih _ (Dict.nodup_keys_erase h m)

theorem nodup_popReserved {tf : Dict Str Int} (h : (Dict.keys tf).Nodup) : (Dict.keys (popReserved tf)).Nodup :=
  nodup_foldl_erase _ tf h

theorem erase_sublist (d : Dict Str Int) (k : Str) : (Dict.erase d k).Sublist d := by
  induction d with
  | nil => exact List.Sublist.slnil
  | cons p d ih =>
    obtain ⟨k', v⟩ := p
    simp only [Dict.erase]
    split
    · exact List.sublist_cons_self _ _
    · exact ih.cons_cons _

theorem popReserved_sublist (d : Dict Str Int) : (popReserved d).Sublist d := by
  have : ∀ (ns : List Str) (d : Dict Str Int), (ns.foldl (fun d n => Dict.erase d n) d).Sublist d := by
    intro ns
    induction ns with
    | nil => intro d; exact List.Sublist.refl _
    | cons m ns ih => intro d; exact (ih _).trans (erase_sublist d m)
  exact this _ d

theorem mem_popReserved {tf : Dict Str Int} (h : (Dict.keys tf).Nodup) (n : Str) (f : Int) :
    (n, f) ∈ popReserved tf ↔ (n, f) ∈ tf ∧ n ∉ reservedNames := by
  rw [← Dict.get?_eq_some_iff (nodup_popReserved h), get?_popReserved h, ← Dict.get?_eq_some_iff h]
  by_cases hn : n ∈ reservedNames <;> simp [hn]

theorem isum_erase (d : Dict Str Int) (k : Str) :
    isum (Dict.values d) = isum (Dict.values (Dict.erase d k)) + (Dict.get? d k).getD 0 := by
  induction d with
  | nil => simp [Dict.values, Dict.erase, Dict.get?]
  | cons p d ih =>
    obtain ⟨k', v⟩ := p
    simp only [Dict.erase, Dict.get?]
    split
    · simp [Dict.values, isum]; omega
    · simp only [Dict.values, List.map_cons, isum, List.foldr_cons] at ih ⊢
      omega

theorem isum_popReserved {tf : Dict Str Int} (h : (Dict.keys tf).Nodup) :
    isum (Dict.values tf) = isum (Dict.values (popReserved tf)) + isum (reservedNames.map fun n => (Dict.get? tf n).getD 0) := by
  have : ∀ (ns : List Str) (d : Dict Str Int), (Dict.keys d).Nodup → ns.Nodup →
      isum (Dict.values d) = isum (Dict.values (ns.foldl (fun d n => Dict.erase d n) d)) +
        isum (ns.map fun n => (Dict.get? d n).getD 0) := by
    intro ns
    induction ns with
    | nil => intro d _ _; simp [isum]
    | cons m ns ih =>
      intro d hd hns
      rw [List.nodup_cons] at hns
      have e1 := isum_erase d m
      have e2 := ih (Dict.erase d m) (Dict.nodup_keys_erase hd m) hns.2
      have e3 : (ns.map fun n => (Dict.get? (Dict.erase d m) n).getD 0) = ns.map fun n => (Dict.get? d n).getD 0 := by
        apply List.map_congr_left
        intro n hn
        have : ¬ m = n := fun e => hns.1 (e ▸ hn)
        rw [Dict.get?_erase hd, if_neg this]
      rw [List.foldl_cons, List.map_cons]
      rw [e3] at e2
      simp only [isum, List.foldr_cons] at *
      omega
  exact this _ tf h nodup_reservedNames

/-! ## trimming -/

theorem trimTerms_mass (terms : List (Str × Int)) (mf vs : Int) :
    isum ((trimTerms terms mf vs).1.map (·.2)) + (trimTerms terms mf vs).2 = isum (terms.map (·.2)) := by
  have hfil : ∀ l : List (Str × Int), isum ((l.filter fun p => decide (mf ≤ p.2)).map (·.2)) +
      isum ((l.filter fun p => decide (p.2 < mf)).map (·.2)) = isum (l.map (·.2)) := by
    intro l
    induction l with
    | nil => simp [isum]
    | cons p l ih =>
      by_cases h : mf ≤ p.2
      · have h' : ¬ p.2 < mf := by omega
        simp only [List.filter_cons, h, h', decide_true, decide_false, if_true, List.map_cons, isum,
          List.foldr_cons, Bool.false_eq_true, if_false] at ih ⊢
        omega
      · have h' : p.2 < mf := by omega
        simp only [List.filter_cons, h, h', decide_true, decide_false, if_true, List.map_cons, isum,
          List.foldr_cons, Bool.false_eq_true, if_false] at ih ⊢
        omega
  have htd : ∀ (l : List (Str × Int)) k, isum ((l.take k).map (·.2)) + isum ((l.drop k).map (·.2)) = isum (l.map (·.2)) := by
    intro l k
    rw [← isum_append, ← List.map_append, List.take_append_drop]
  simp only [trimTerms]
  by_cases h1 : 1 < mf
  · simp only [h1, if_true]
    have := hfil terms
    split
    · have h2 := htd (terms.filter fun p => decide (mf ≤ p.2)) (sliceBound (terms.filter fun p => decide (mf ≤ p.2)).length (vs - 6))
      simp only at h2 ⊢
      omega
    · simp only; omega
  · simp only [h1, if_false]
    split
    · have h2 := htd terms (sliceBound terms.length (vs - 6))
      simp only at h2 ⊢
      omega
    · simp only; omega

theorem trimTerms_sublist (terms : List (Str × Int)) (mf vs : Int) : (trimTerms terms mf vs).1.Sublist terms := by
  simp only [trimTerms]
  split <;> split
  · exact (List.take_sublist _ _).trans List.filter_sublist
  · exact List.filter_sublist
  · exact List.take_sublist _ _
  · exact List.Sublist.refl _

theorem filter_prefix_of_sorted {l : List (Str × Int)} (h : l.Pairwise (fun a b => b.2 ≤ a.2)) (mf : Int) :
    (l.filter fun p => decide (mf ≤ p.2)) <+: l := by
  induction l with
  | nil => simp
  | cons p l ih =>
    rw [List.pairwise_cons] at h
    by_cases hp : mf ≤ p.2
    · simp only [List.filter_cons, hp, decide_true, if_true]
      exact List.prefix_cons_inj p |>.2 (ih h.2)
    · have : l.filter (fun p => decide (mf ≤ p.2)) = [] := by
        rw [List.filter_eq_nil_iff]
        intro q hq
        have := h.1 q hq
        simp; omega
      simp [hp, this]

/-- what is kept is an initial segment of the sorted terms -/
theorem trimTerms_prefix {terms : List (Str × Int)} (h : terms.Pairwise (fun a b => b.2 ≤ a.2)) (mf vs : Int) :
    (trimTerms terms mf vs).1 <+: terms := by
  simp only [trimTerms]
  split <;> split
  · exact (List.take_prefix _ _).trans (filter_prefix_of_sorted h mf)
  · exact filter_prefix_of_sorted h mf
  · exact List.take_prefix _ _
  · exact List.prefix_rfl

theorem trimTerms_minFreq (terms : List (Str × Int)) (mf vs : Int) (h1 : ∀ p ∈ terms, 1 ≤ p.2) :
    ∀ p ∈ (trimTerms terms mf vs).1, mf ≤ p.2 := by
  intro p hp
  have hsub := (trimTerms_sublist terms mf vs).subset hp
  have := h1 p hsub
  by_cases hm : 1 < mf
  · have key : (trimTerms terms mf vs).1.Sublist (terms.filter fun p => decide (mf ≤ p.2)) := by
      simp only [trimTerms, hm, if_true]
      split
      · exact List.take_sublist _ _
      · exact List.Sublist.refl _
    have := (List.mem_filter.1 (key.subset hp)).2
    simpa using this
  · omega

theorem trimTerms_size (terms : List (Str × Int)) (mf vs : Int) (h6 : 6 ≤ vs) :
    ((trimTerms terms mf vs).1.length : Int) + 6 ≤ vs := by
  simp only [trimTerms]
  generalize (if 1 < mf then terms.filter fun p => decide (mf ≤ p.2) else terms) = t1
  split
  · simp only [List.length_take, sliceBound]
    split <;> omega
  · simp only; omega

/-- a term that is trimmed is rare, or the vocabulary is full -/
theorem trimTerms_complete (terms : List (Str × Int)) (mf vs : Int) (p : Str × Int) (hp : p ∈ terms)
    (hn : p ∉ (trimTerms terms mf vs).1) :
    p.2 < mf ∨ (0 < vs ∧ (6 ≤ vs → ((trimTerms terms mf vs).1.length : Int) + 6 = vs)) := by
  by_cases hr : p.2 < mf
  · exact Or.inl hr
  · right
    have ht1 : p ∈ (if 1 < mf then terms.filter fun p => decide (mf ≤ p.2) else terms) := by
      split
      · exact List.mem_filter.2 ⟨hp, by simp; omega⟩
      · exact hp
    simp only [trimTerms] at hn ⊢
    generalize (if 1 < mf then terms.filter fun p => decide (mf ≤ p.2) else terms) = t1 at ht1 hn ⊢
    by_cases hc : 0 < vs ∧ vs < (6 + t1.length : Nat)
    · rw [if_pos hc] at hn ⊢
      refine ⟨hc.1, fun h6 => ?_⟩
      have : sliceBound t1.length (vs - 6) = (vs - 6).toNat := by
        simp only [sliceBound]
        rw [if_neg (by omega)]
        omega
      simp only [List.length_take, this]
      omega
    · rw [if_neg hc] at hn
      exact absurd ht1 hn

/-! ## counting -/

theorem termFrequencies_nodup (k : Kind) (data : List Str) : (Dict.keys (termFrequencies k data).1).Nodup := by
  have : ∀ (data : List Str) (d : Dict Str Int), (Dict.keys d).Nodup →
      (Dict.keys (data.foldl (fun d line => Dict.count d (learnPieces k line)) d)).Nodup := by
    intro data
    induction data with
    | nil => intro d h; exact h
    | cons l data ih => intro d h; exact ih _ (Dict.nodup_keys_count h _)
  exact this data [] (by simp [Dict.keys])

theorem termFrequencies_count (k : Kind) (data : List Str) :
    (termFrequencies k data).1 = Dict.count [] (data.flatMap (learnPieces k)) := by
  have : ∀ (data : List Str) (d : Dict Str Int),
      data.foldl (fun d line => Dict.count d (learnPieces k line)) d = Dict.count d (data.flatMap (learnPieces k)) := by
    intro data
    induction data with
    | nil => intro d; rfl
    | cons l data ih =>
      intro d
      rw [List.foldl_cons, ih, List.flatMap_cons]
      simp only [Dict.count, List.foldl_append]
  exact this data []

/-- the entries of a counted dict are the distinct items with their number of occurrences -/
theorem mem_count_nil {κ : Type} [DecidableEq κ] [BEq κ] [LawfulBEq κ] (xs : List κ) (n : κ) (f : Int) :
    (n, f) ∈ Dict.count ([] : Dict κ Int) xs ↔ n ∈ xs ∧ f = xs.count n := by
  have hnd : (Dict.keys (Dict.count ([] : Dict κ Int) xs)).Nodup := Dict.nodup_keys_count (by simp [Dict.keys]) xs
  have hk := Dict.mem_keys_count ([] : Dict κ Int) xs n
  have hc := Dict.cnt_count ([] : Dict κ Int) xs n
  simp only [Dict.keys, List.map_nil, List.not_mem_nil, false_or] at hk
  rw [← Dict.get?_eq_some_iff hnd]
  constructor
  · intro h
    have hm : n ∈ xs := hk.1 (by
      have := (Dict.isSome_get?_iff (Dict.count ([] : Dict κ Int) xs) n).1 (by simp [h])
      exact this)
    refine ⟨hm, ?_⟩
    simp only [Dict.cnt, h, Option.getD_some, Dict.get?, Option.getD_none] at hc
    omega
  · rintro ⟨hm, rfl⟩
    have := (Dict.isSome_get?_iff (Dict.count ([] : Dict κ Int) xs) n).2 (hk.2 hm)
    obtain ⟨v, hv⟩ := Option.isSome_iff_exists.1 this
    simp only [Dict.cnt, hv, Option.getD_some, Dict.get?, Option.getD_none] at hc
    rw [hv]
    congr 1
    omega

end Verif
