import Verif.Props.BpeLearn
/-!
# Property C96: the check of the index of `BPELearn`
-/

namespace Verif
open Spec

/-- An index of a corpus is consistent with a vocabulary: there are codes, all of them indices of the vocabulary; every counted pair has
its positions, whose frequencies add up to its count, and is no more frequent than its parts; no count is negative; and there are as many
sets of positions as counted pairs. -/
structure Spec.Consistent (I : Index) (vocab : List Ty) : Prop where
  ne : I.uni ≠ []
  codes : ∀ c ∈ I.uni, c.1 < vocab.length ∧ ∃ t ∈ vocab, c.1 ≤ t.idx
  uni : ∀ c ∈ I.uni, 0 ≤ c.2
  size : I.bi.length = I.ix.length
  bi : ∀ b ∈ I.bi, 0 ≤ b.2 ∧ (∃ ids, Dict.get? I.ix b.1 = some ids ∧ b.2 = (ids.map fun n => (I.mem n).freq).sum) ∧
    b.2 ≤ (Dict.get? I.uni b.1.1).getD 0 ∧ b.2 ≤ (Dict.get? I.uni b.1.2).getD 0

theorem isum_sum (l : List Int) : isum l = l.sum := by
  induction l with
  | nil => rfl
  | cons a l ih => rw [List.sum_cons, ← ih]; rfl

theorem validateBi_ok (I : Index) (l : List (Pair × Int)) : validateBi I l = .ok () ↔
    ∀ b ∈ l, 0 ≤ b.2 ∧ (∃ ids, Dict.get? I.ix b.1 = some ids ∧ b.2 = (ids.map fun n => (I.mem n).freq).sum) ∧
      b.2 ≤ (Dict.get? I.uni b.1.1).getD 0 ∧ b.2 ≤ (Dict.get? I.uni b.1.2).getD 0 := by
  induction l with
  | nil => simp [validateBi]
  | cons b l ih =>
    obtain ⟨p, f⟩ := b
    rw [validateBi, List.forall_mem_cons, ← ih]
    dsimp only
    split
    · constructor
      · intro h; cases h
      · rintro ⟨⟨h, _⟩, _⟩; omega
    · cases hx : Dict.get? I.ix p with
      | none => simp
      | some ids =>
        simp only [isum_sum, Option.some.injEq, exists_eq_left']
        split
        · constructor
          · intro h; cases h
          · rintro ⟨⟨_, h, _⟩, _⟩; contradiction
        · split
          · constructor
            · intro h; cases h
            · rintro ⟨⟨_, _, h, _⟩, _⟩; omega
          · split
            · constructor
              · intro h; cases h
              · rintro ⟨⟨_, _, _, h⟩, _⟩; omega
            · constructor
              · intro h; exact ⟨⟨by omega, by omega, by omega, by omega⟩, h⟩
              · exact fun h => h.2

theorem validateBi_error (I : Index) (l : List (Pair × Int)) {e : Exc} (h : validateBi I l = .error e) : e = .value := by
  induction l with
  | nil => cases h
  | cons b l ih =>
    obtain ⟨p, f⟩ := b
    rw [validateBi] at h
    split at h
    · cases h; rfl
    · split at h
      · cases h; rfl
      · split at h
        · cases h; rfl
        · split at h
          · cases h; rfl
          · split at h
            · cases h; rfl
            · exact ih h

theorem pyMax_bound {l : List Nat} {m : Nat} (h : pyMax l = .ok m) : m ∈ l ∧ ∀ x ∈ l, x ≤ m := by
  cases l with
  | nil => cases h
  | cons a l =>
    have h : l.foldl max a = m := by simpa [pyMax] using h
    subst h
    induction l generalizing a with
    | nil => simp
    | cons b l ih =>
      rw [List.foldl_cons]
      obtain ⟨h1, h2⟩ := ih (max a b) rfl
      constructor
      · rcases List.mem_cons.1 h1 with h | h
        · rw [h]
          rcases le_total a b with g | g
          · rw [max_eq_right g]; simp
          · rw [max_eq_left g]; simp
        · simp [h]
      · intro x hx
        have := h2 (max a b) (by simp)
        rcases List.mem_cons.1 hx with rfl | hx
        · exact (le_max_left _ _).trans this
        · rcases List.mem_cons.1 hx with rfl | hx
          · exact (le_max_right _ _).trans this
          · exact h2 x (by simp [hx])

/-- C96: `validate_index` returns exactly if the index is consistent, and raises ValueError otherwise. -/
theorem C96_accepts (I : Index) (vocab : List Ty) :
    (validateIndex I vocab = .ok () ↔ Consistent I vocab) ∧ (¬ Consistent I vocab → validateIndex I vocab = .error .value) := by
  have hiff : validateIndex I vocab = .ok () ↔ Consistent I vocab := by
    unfold validateIndex
    cases hk : pyMax (Dict.keys I.uni) with
    | error e =>
      simp only [reduceCtorEq, false_iff]
      intro hc
      obtain ⟨x, xs, hx⟩ := List.exists_cons_of_ne_nil hc.ne
      rw [hx] at hk
      cases hk
    | ok m =>
      obtain ⟨k1, k2⟩ := pyMax_bound hk
      obtain ⟨⟨c, f⟩, hcm, rfl⟩ := List.mem_map.1 k1
      cases hv : pyMax (vocab.map (·.idx)) with
      | error e =>
        simp only [reduceCtorEq, false_iff]
        intro hc
        obtain ⟨_, t, ht, _⟩ := hc.codes _ hcm
        cases vocab with
        | nil => simp at ht
        | cons _ _ => cases hv
      | ok mi =>
        obtain ⟨v1, v2⟩ := pyMax_bound hv
        simp only
        split
        · rename_i hn
          simp only [reduceCtorEq, false_iff]
          intro hc
          obtain ⟨g1, t, g2, g3⟩ := hc.codes _ hcm
          exact hn ⟨g1, g3.trans (v2 _ (List.mem_map.2 ⟨t, g2, rfl⟩))⟩
        · rename_i hn
          obtain ⟨n1, n2⟩ := not_not.1 hn
          split
          · rename_i hl
            simp only [reduceCtorEq, false_iff]
            exact fun hc => hl hc.size
          · rename_i hl
            cases hb : validateBi I I.bi with
            | error e =>
              simp only [reduceCtorEq, false_iff]
              intro hc
              rw [(validateBi_ok I I.bi).2 hc.bi] at hb
              cases hb
            | ok u =>
              simp only
              split
              · rename_i hu
                simp only [true_iff]
                refine ⟨List.ne_nil_of_mem hcm, fun d hd => ?_, fun d hd => ?_, not_not.1 hl, (validateBi_ok I I.bi).1 hb⟩
                · have := k2 _ (List.mem_map.2 ⟨d, hd, rfl⟩)
                  obtain ⟨t, ht, hti⟩ := List.mem_map.1 v1
                  exact ⟨by omega, t, ht, by omega⟩
                · exact of_decide_eq_true (List.all_eq_true.1 hu _ (List.mem_map.2 ⟨d, hd, rfl⟩))
              · rename_i hu
                simp only [reduceCtorEq, false_iff]
                intro hc
                refine hu (List.all_eq_true.2 fun f hf => ?_)
                obtain ⟨d, hd, rfl⟩ := List.mem_map.1 hf
                exact decide_eq_true (hc.uni d hd)
  refine ⟨hiff, fun hn => ?_⟩
  have herr : ∀ e, validateIndex I vocab = .error e → e = .value := by
    intro e h
    unfold validateIndex at h
    split at h
    · rename_i g
      unfold pyMax at g
      split at g <;> cases g
      cases h; rfl
    · split at h
      · rename_i g
        unfold pyMax at g
        split at g <;> cases g
        cases h; rfl
      · split at h
        · cases h; rfl
        · split at h
          · cases h; rfl
          · split at h
            · rename_i g
              cases h
              exact validateBi_error _ _ g
            · split at h <;> cases h
              rfl
  cases h : validateIndex I vocab with
  | ok u => exact absurd (hiff.1 h) hn
  | error e => rw [herr e h]

/-- an index of the corpus "ab" twice and "b": consistent; not so with a wrong count of a pair, of a unigram, or a code out of range -/
example : let v : List Ty := [⟨lit "a", 0, 0, 2, []⟩, ⟨lit "b", 0, 1, 3, []⟩]
    let mem : Nat → Node := fun n => if n = 0 then ⟨0, none, some 1, 2⟩ else if n = 1 then ⟨1, some 0, none, 2⟩ else ⟨1, none, none, 1⟩
    validateIndex ⟨mem, 3, [((0, 1), 2)], [((0, 1), [0])], [(0, 2), (1, 3)]⟩ v = .ok () ∧
    validateIndex ⟨mem, 3, [((0, 1), 1)], [((0, 1), [0])], [(0, 2), (1, 3)]⟩ v = .error .value ∧
    validateIndex ⟨mem, 3, [((0, 1), 2)], [((0, 1), [0])], [(0, 2), (1, 1)]⟩ v = .error .value ∧
    validateIndex ⟨mem, 3, [((0, 1), 2)], [((0, 1), [0])], [(0, 2), (1, 3), (2, 1)]⟩ v = .error .value := by decide

end Verif
