import Verif.Lemmas.Trie
import Mathlib.Data.List.Dedup
/-! # Counting the nodes of a trie -/

namespace Verif
namespace Trie
variable {α : Type}

mutual
/-- the strings leading to nodes -/
def paths : Trie α → List Str
  | ⟨_, ks⟩ => [] :: pathsL ks
/-- the strings leading to nodes through one of the kids -/
def pathsL : List (Nat × Trie α) → List Str
  | [] => []
  | (c, t) :: ks => (paths t).map (c :: ·) ++ pathsL ks
end

mutual
/-- the strings leading to nodes with data -/
def dpaths : Trie α → List Str
  | ⟨d, ks⟩ => (if d.isSome then [[]] else []) ++ dpathsL ks
/-- the same through one of the kids -/
def dpathsL : List (Nat × Trie α) → List Str
  | [] => []
  | (c, t) :: ks => (dpaths t).map (c :: ·) ++ dpathsL ks
end

mutual
/-- no child is listed twice, anywhere -/
def WF : Trie α → Prop
  | ⟨_, ks⟩ => WFL ks
/-- the same for a list of kids -/
def WFL : List (Nat × Trie α) → Prop
  | [] => True
  | (c, t) :: ks => c ∉ ks.map (·.1) ∧ WF t ∧ WFL ks
end

/-- induction over tries and their lists of kids -/
theorem ind2 {P : Trie α → Prop} {Q : List (Nat × Trie α) → Prop} (h1 : ∀ d ks, Q ks → P ⟨d, ks⟩) (h2 : Q [])
    (h3 : ∀ c t ks, P t → Q ks → Q ((c, t) :: ks)) : (∀ t, P t) ∧ ∀ ks, Q ks := by
  have h : ∀ t : Trie α, P t := by
    intro t
    refine Trie.rec (motive_1 := P) (motive_2 := Q) (motive_3 := fun p => P p.2) ?_ ?_ ?_ ?_ t
    · intro d ks hq; exact h1 d ks hq
    · exact h2
    · intro hd tl hp hq; obtain ⟨c, t⟩ := hd; exact h3 c t tl hp hq
    · intro c t ht; exact ht
  refine ⟨h, fun ks => ?_⟩
  induction ks with
  | nil => exact h2
  | cons p ks ih => obtain ⟨c, t⟩ := p; exact h3 c t ks (h t) ih

theorem paths_length : (∀ t : Trie α, (paths t).length = size t) ∧ ∀ ks : List (Nat × Trie α), (pathsL ks).length = sizes ks := by
  refine ind2 ?_ ?_ ?_
  · intro d ks h; simp [paths, size, h]; omega
  · rfl
  · intro c t ks h1 h2; simp [pathsL, sizes, h1, h2]

theorem dpaths_length : (∀ t : Trie α, (dpaths t).length = dataCount t) ∧ ∀ ks : List (Nat × Trie α), (dpathsL ks).length = dataCounts ks := by
  refine ind2 ?_ ?_ ?_
  · intro d ks h; cases d <;> simp [dpaths, dataCount, h]; omega
  · rfl
  · intro c t ks h1 h2; simp [dpathsL, dataCounts, h1, h2]

/-- paths through kids start with a child -/
theorem mem_pathsL {ks : List (Nat × Trie α)} {s : Str} (h : s ∈ pathsL ks) : ∃ c r, s = c :: r ∧ c ∈ ks.map (·.1) := by
  induction ks with
  | nil => simp [pathsL] at h
  | cons p ks ih =>
    obtain ⟨c, t⟩ := p
    simp only [pathsL, List.mem_append, List.mem_map] at h
    rcases h with ⟨r, _, e⟩ | h
    · exact ⟨c, r, e.symm, by simp⟩
    · obtain ⟨c', r, e, hm⟩ := ih h
      exact ⟨c', r, e, by simp at hm ⊢; exact .inr hm⟩

theorem mem_dpathsL {ks : List (Nat × Trie α)} {s : Str} (h : s ∈ dpathsL ks) : ∃ c r, s = c :: r ∧ c ∈ ks.map (·.1) := by
  induction ks with
  | nil => simp [dpathsL] at h
  | cons p ks ih =>
    obtain ⟨c, t⟩ := p
    simp only [dpathsL, List.mem_append, List.mem_map] at h
    rcases h with ⟨r, _, e⟩ | h
    · exact ⟨c, r, e.symm, by simp⟩
    · obtain ⟨c', r, e, hm⟩ := ih h
      exact ⟨c', r, e, by simp at hm ⊢; exact .inr hm⟩

theorem paths_nodup : (∀ t : Trie α, WF t → (paths t).Nodup) ∧ ∀ ks : List (Nat × Trie α), WFL ks → (pathsL ks).Nodup := by
  refine ind2 ?_ ?_ ?_
  · intro d ks h hw
    simp only [paths, List.nodup_cons]
    refine ⟨fun hm => ?_, h hw⟩
    obtain ⟨c, r, e, _⟩ := mem_pathsL hm
    cases e
  · intro _; simp [pathsL]
  · intro c t ks h1 h2 hw
    obtain ⟨a, b, d⟩ := hw
    simp only [pathsL]
    refine List.Nodup.append ((h1 b).map (fun x y e => by simpa using e)) (h2 d) ?_
    intro s hs hs'
    obtain ⟨r, _, e⟩ := List.mem_map.1 hs
    obtain ⟨c', r', e', hm⟩ := mem_pathsL hs'
    rw [e'] at e
    injection e with e1 e2
    subst e1
    exact a hm

theorem dpaths_nodup : (∀ t : Trie α, WF t → (dpaths t).Nodup) ∧ ∀ ks : List (Nat × Trie α), WFL ks → (dpathsL ks).Nodup := by
  refine ind2 ?_ ?_ ?_
  · intro d ks h hw
    cases d with
    | none => simpa [dpaths] using h hw
    | some d =>
      simp only [dpaths, Option.isSome_some, if_true, List.singleton_append, List.nodup_cons]
      refine ⟨fun hm => ?_, h hw⟩
      obtain ⟨c, r, e, _⟩ := mem_dpathsL hm
      cases e
  · intro _; simp [dpathsL]
  · intro c t ks h1 h2 hw
    obtain ⟨a, b, d⟩ := hw
    simp only [dpathsL]
    refine List.Nodup.append ((h1 b).map (fun x y e => by simpa using e)) (h2 d) ?_
    intro s hs hs'
    obtain ⟨r, _, e⟩ := List.mem_map.1 hs
    obtain ⟨c', r', e', hm⟩ := mem_dpathsL hs'
    rw [e'] at e
    injection e with e1 e2
    subst e1
    exact a hm

theorem mem_paths : (∀ t : Trie α, WF t → ∀ s, s ∈ paths t ↔ (t.find s).isSome = true) ∧
    ∀ ks : List (Nat × Trie α), WFL ks → ∀ c r, c :: r ∈ pathsL ks ↔ ((Dict.get? ks c).bind (find r)).isSome = true := by
  refine ind2 ?_ ?_ ?_
  · intro d ks h hw s
    cases s with
    | nil => simp [paths]
    | cons c r => simp only [paths, List.mem_cons, reduceCtorEq, false_or, find_cons, child]; exact h hw c r
  · intro _ c r; simp [pathsL]
  · intro c t ks h1 h2 hw c' r
    obtain ⟨a, b, d⟩ := hw
    simp only [pathsL, List.mem_append, List.mem_map, Dict.get?_cons]
    by_cases e : c = c'
    · subst e
      simp only [if_true, Option.bind_some, ← h1 b]
      constructor
      · rintro (⟨x, hx, e⟩ | h)
        · injection e with _ e2; subst e2; exact hx
        · obtain ⟨c', r', e', hm⟩ := mem_pathsL h
          injection e' with e1 e2; subst e1
          exact absurd hm a
      · intro hx; exact .inl ⟨r, hx, rfl⟩
    · simp only [e, if_false, ← h2 d]
      constructor
      · rintro (⟨x, hx, e'⟩ | h)
        · injection e' with e1 _; exact absurd e1 e
        · exact h
      · exact .inr

theorem mem_dpaths : (∀ t : Trie α, WF t → ∀ s, s ∈ dpaths t ↔ (t.lookup s).isSome = true) ∧
    ∀ ks : List (Nat × Trie α), WFL ks → ∀ c r, c :: r ∈ dpathsL ks ↔ ((Dict.get? ks c).bind (lookup r)).isSome = true := by
  refine ind2 ?_ ?_ ?_
  · intro d ks h hw s
    cases s with
    | nil =>
      have hno : ([] : Str) ∉ dpathsL ks := fun hm => by obtain ⟨c, r, e, _⟩ := mem_dpathsL hm; cases e
      cases d <;> simp [dpaths, lookup, hno]
    | cons c r =>
      have e : (Trie.mk d ks).lookup (c :: r) = (Dict.get? ks c).bind (lookup r) := by
        simp only [lookup, find_cons, child]
        cases Dict.get? ks c <;> rfl
      rw [e, ← h hw c r]
      cases d <;> simp [dpaths]
  · intro _ c r; simp [dpathsL]
  · intro c t ks h1 h2 hw c' r
    obtain ⟨a, b, d⟩ := hw
    simp only [dpathsL, List.mem_append, List.mem_map, Dict.get?_cons]
    by_cases e : c = c'
    · subst e
      simp only [if_true, Option.bind_some, ← h1 b]
      constructor
      · rintro (⟨x, hx, e⟩ | h)
        · injection e with _ e2; subst e2; exact hx
        · obtain ⟨c', r', e', hm⟩ := mem_dpathsL h
          injection e' with e1 e2; subst e1
          exact absurd hm a
      · intro hx; exact .inl ⟨r, hx, rfl⟩
    · simp only [e, if_false, ← h2 d]
      constructor
      · rintro (⟨x, hx, e'⟩ | h)
        · injection e' with e1 _; exact absurd e1 e
        · exact h
      · exact .inr

theorem WFL_set {ks : List (Nat × Trie α)} (h : WFL ks) {t : Trie α} (ht : WF t) (c : Nat) : WFL (Dict.set ks c t) := by
  induction ks with
  | nil => exact ⟨by simp, ht, trivial⟩
  | cons p ks ih =>
    obtain ⟨c', t'⟩ := p
    obtain ⟨a, b, d⟩ := h
    simp only [Dict.set]
    split
    · exact ⟨a, ht, d⟩
    · rename_i hne
      refine ⟨?_, b, ih d⟩
      change c' ∉ Dict.keys (Dict.set ks c t)
      rw [Dict.keys_set]
      by_cases hc : c ∈ Dict.keys ks
      · rw [if_pos hc]; exact a
      · rw [if_neg hc]
        simp only [List.mem_append, List.mem_singleton, not_or]
        exact ⟨a, hne⟩

theorem WFL_get {ks : List (Nat × Trie α)} (h : WFL ks) {c : Nat} {t : Trie α} (hg : Dict.get? ks c = some t) : WF t := by
  induction ks with
  | nil => simp at hg
  | cons p ks ih =>
    obtain ⟨c', t'⟩ := p
    obtain ⟨a, b, d⟩ := h
    rw [Dict.get?_cons] at hg
    split at hg
    · cases hg; exact b
    · exact ih d hg

theorem WF_insert (w : Str) (d : α) : ∀ t : Trie α, WF t → WF (t.insert w d) := by
  induction w with
  | nil => intro t h; cases t; exact h
  | cons c cs ih =>
    intro t h
    cases t with
    | mk d' ks =>
      refine WFL_set h (ih _ ?_) c
      cases hg : Dict.get? ks c with
      | none => simp [child, hg, empty, WF, WFL]
      | some k => simp [child, hg]; exact WFL_get h hg

end Trie

theorem WF_buildTrie (table : List Ty) : (buildTrie table).WF := by
  have key : ∀ (l : List Ty) (root : Trie Ty), root.WF → (l.foldl (fun root t => root.insert t.name t) root).WF := by
    intro l
    induction l with
    | nil => intro root h; exact h
    | cons t ts ih => intro root h; exact ih _ (Trie.WF_insert _ _ _ h)
  exact key table _ trivial

end Verif
