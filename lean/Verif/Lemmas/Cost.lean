import Verif.Model.Cost
import Verif.Spec.Cost
import Verif.Lemmas.Greedy
/-! # Counting the rounds of the encoder -/

namespace Verif
open Spec

/-- how deep one can go below `t` along `s` -/
def Trie.descend (t : Trie Ty) : Str → Nat
  | [] => 0
  | c :: cs => match t.child c with
    | some k => k.descend cs + 1
    | none => 0

theorem Trie.le_descend (s : Str) : ∀ (t : Trie Ty) (k : Nat), k ≤ s.length →
    (k ≤ t.descend s ↔ (t.find (s.take k)).isSome = true) := by
  induction s with
  | nil => intro t k hk; simp at hk; subst hk; simp [Trie.descend]
  | cons c cs ih =>
    intro t k hk
    cases k with
    | zero => simp
    | succ k =>
      rw [List.take_succ_cons, Trie.find_cons]
      cases hc : t.child c with
      | none => simp [Trie.descend, hc]
      | some n =>
        simp only [Trie.descend, hc, Nat.add_le_add_iff_right]
        exact ih n k (by simpa using hk)

theorem Trie.descend_le (s : Str) : ∀ (t : Trie Ty), t.descend s ≤ s.length := by
  induction s with
  | nil => intro t; simp [Trie.descend]
  | cons c cs ih =>
    intro t
    cases hc : t.child c with
    | none => simp [Trie.descend, hc]
    | some n => simp only [Trie.descend, hc, List.length_cons, Nat.add_le_add_iff_right]; exact ih n

theorem le_common (s : Str) : ∀ (t : Str) (k : Nat), k ≤ s.length → (k ≤ common s t ↔ s.take k <+: t) := by
  induction s with
  | nil => intro t k hk; simp at hk; subst hk; simp
  | cons c cs ih =>
    intro t k hk
    cases k with
    | zero => simp
    | succ k =>
      cases t with
      | nil => simp [common]
      | cons d ds =>
        rw [List.take_succ_cons, List.cons_prefix_cons]
        by_cases h : c = d
        · subst h
          simp only [common, if_true, Nat.add_le_add_iff_right, true_and]
          exact ih ds k (by simpa using hk)
        · simp [common, h]

theorem common_le (s : Str) : ∀ t : Str, common s t ≤ s.length ∧ common s t ≤ t.length := by
  induction s with
  | nil => intro t; simp [common]
  | cons c cs ih =>
    intro t
    cases t with
    | nil => simp [common]
    | cons d ds =>
      have := ih ds
      by_cases h : c = d
      · simp only [common, if_pos h, List.length_cons]; omega
      · simp [common, h]

theorem le_foldr_max (l : List Nat) (k : Nat) : k ≤ l.foldr max 0 ↔ k = 0 ∨ ∃ x ∈ l, k ≤ x := by
  induction l with
  | nil => simp
  | cons a l ih =>
    rw [List.foldr_cons, show (k ≤ max a (l.foldr max 0) ↔ k ≤ a ∨ k ≤ l.foldr max 0) by omega, ih]
    simp only [List.mem_cons, exists_eq_or_imp]
    tauto

theorem le_reach {ns : List Str} {s : Str} {k : Nat} (hk : k ≤ s.length) :
    k ≤ reach ns s ↔ k = 0 ∨ ∃ n ∈ ns, s.take k <+: n := by
  rw [reach, le_foldr_max]
  simp only [List.mem_map, exists_exists_and_eq_and]
  constructor
  · rintro (h | ⟨n, hn, h⟩)
    · exact .inl h
    · exact .inr ⟨n, hn, (le_common s n k hk).1 h⟩
  · rintro (h | ⟨n, hn, h⟩)
    · exact .inl h
    · exact .inr ⟨n, hn, (le_common s n k hk).2 h⟩

theorem reach_le {ns : List Str} {s : Str} : reach ns s ≤ s.length := by
  rcases (le_foldr_max (ns.map (common s)) (reach ns s)).1 (Nat.le_refl _) with h | ⟨x, hx, h⟩
  · rw [h]; exact Nat.zero_le _
  · obtain ⟨n, _, rfl⟩ := List.mem_map.1 hx
    exact Nat.le_trans h (common_le s n).1

theorem reach_le_names {ns : List Str} {s : Str} {L : Nat} (h : ∀ n ∈ ns, n.length ≤ L) : reach ns s ≤ L := by
  rcases (le_foldr_max (ns.map (common s)) (reach ns s)).1 (Nat.le_refl _) with h' | ⟨x, hx, h'⟩
  · rw [h']; exact Nat.zero_le _
  · obtain ⟨n, hn, rfl⟩ := List.mem_map.1 hx
    exact Nat.le_trans (Nat.le_trans h' (common_le s n).2) (h n hn)

theorem descend_buildTrie (table : List Ty) (s : Str) :
    (buildTrie table).descend s = reach (table.map (·.name)) s := by
  have key : ∀ k, k ≤ s.length → (k ≤ (buildTrie table).descend s ↔ k ≤ reach (table.map (·.name)) s) := by
    intro k hk
    rw [Trie.le_descend s _ k hk, find_buildTrie_isSome, le_reach hk]
    have : s.take k = [] ↔ k = 0 := by
      rw [List.take_eq_nil_iff]
      constructor
      · rintro (h | h)
        · exact h
        · subst h; simpa using hk
      · exact .inl
    rw [this]
    simp
  apply Nat.le_antisymm
  · exact (key _ (Trie.descend_le s _)).1 (Nat.le_refl _)
  · exact (key _ reach_le).2 (Nat.le_refl _)

/-- one walk: as `encLoop_walk`, counting -/
theorem encWork_walk (root : Trie Ty) (unk : Int) (seq : Str) (res : List Int) (hseq : seq ≠ []) :
    ∀ (rest : Str) (t : Trie Ty) (best : Option (Ty × Nat)) (i fuel : Nat),
      seq.drop i = rest → i + rest.length = seq.length → rest.length + 1 ≤ fuel →
      ∃ fuel', fuel ≤ fuel' + rest.length + 1 ∧
        let next := match walk t rest i best with
          | some (d, j) => EncSt.start root (seq.drop j) (res ++ [(d.idx : Int)])
          | none => EncSt.start root (seq.drop 1) (res ++ [unk])
        encWork root unk fuel { seq := seq, best := best, prev := t, idx := i, res := res } =
        ⟨(encWork root unk fuel' next).rounds + (t.descend rest + 1), (encWork root unk fuel' next).copied + next.seq.length⟩ := by
  intro rest
  induction rest with
  | nil =>
    intro t best i fuel hd hl hf
    obtain ⟨f, rfl⟩ : ∃ f, fuel = f + 1 := ⟨fuel - 1, by simp at hf; omega⟩
    refine ⟨f, by simp, ?_⟩
    have hi : i = seq.length := by simpa using hl
    have hcond : EncSt.cond { seq := seq, best := best, prev := t, idx := i, res := res } = true := by
      simp [EncSt.cond, hseq, hi]
    dsimp only
    rw [encWork, if_pos hcond]
    have hn : seq[i]? = none := by simp [hi]
    simp only [EncSt.step, hn, walk, EncSt.step.emit, Trie.descend]
    cases ht : t.data with
    | some d => simp [EncSt.start]
    | none =>
      cases best with
      | none => simp [EncSt.start]
      | some p => simp [EncSt.start]
  | cons c cs ih =>
    intro t best i fuel hd hl hf
    obtain ⟨f, rfl⟩ : ∃ f, fuel = f + 1 := ⟨fuel - 1, by simp at hf; omega⟩
    have hi : i < seq.length := by simp at hl; omega
    have hcond : EncSt.cond { seq := seq, best := best, prev := t, idx := i, res := res } = true := by
      simp [EncSt.cond, hseq]; omega
    have hc : seq[i]? = some c := by
      have := congrArg (fun l => l[0]?) hd
      simpa using this
    have hd' : seq.drop (i + 1) = cs := by
      have := congrArg (List.drop 1) hd
      simpa [List.drop_drop] using this
    rw [encWork, if_pos hcond]
    simp only [EncSt.step, hc]
    cases hk : t.child c with
    | some k =>
      obtain ⟨f', hf', he⟩ := ih k (match t.data with | some d => some (d, i) | none => best) (i + 1) f hd'
        (by simp at hl; omega) (by simp at hf; omega)
      refine ⟨f', by simp; omega, ?_⟩
      simp only [walk, hk, Trie.descend]
      cases ht : t.data <;> simp only [ht] at he <;> simp only [he] <;> simp [Nat.add_assoc]
    | none =>
      refine ⟨f, by simp, ?_⟩
      simp only [EncSt.step.emit, walk, hk, Trie.descend]
      cases ht : t.data with
      | some d => simp [EncSt.start]
      | none =>
        cases best with
        | none => simp [EncSt.start]
        | some p => simp [EncSt.start]

/-- the work of the loop is determined by the greedy segmentation -/
theorem encWork_greedy (table : List Ty) (unk : Int) (hroot : (buildTrie table).data = none) {seq : Str}
    {out : List (Option Str)} (hg : Greedy (table.map (·.name)) seq out) :
    ∀ (n : Nat) (res : List Int) (fuel : Nat), seq.length ≤ n → (n + 2) * (seq.length + 1) ≤ fuel →
      encWork (buildTrie table) unk fuel (EncSt.start (buildTrie table) seq res) =
        ⟨((starts out seq).map fun r => reach (table.map (·.name)) r + 1).sum,
          ((starts out seq).tail.map List.length).sum⟩ := by
  have tl : ∀ (os : List (Option Str)) (r : Str), Greedy (table.map (·.name)) r os →
      ((starts os r).map List.length).sum = r.length + ((starts os r).tail.map List.length).sum := by
    intro os r h
    cases h with
    | nil => simp [starts]
    | tok => simp [starts]
    | unk => simp [starts]
  have hmul : ∀ n m : Nat, (n + 2) * (m + 1) = (n + 2) * m + (n + 2) := by
    intro n m; rw [Nat.mul_add, Nat.mul_one]
  induction hg with
  | nil =>
    intro n res fuel _ hf
    obtain ⟨f, rfl⟩ : ∃ f, fuel = f + 1 := ⟨fuel - 1, by simp at hf; omega⟩
    simp [encWork, EncSt.cond, EncSt.start, starts]
  | @tok w r out hw hm hl hg' ih =>
    intro n res fuel hn hf
    have hs : w ++ r ≠ [] := by simp [hw]
    have hwl : 0 < w.length := List.length_pos_iff.2 hw
    have hm' := hmul n (w ++ r).length
    obtain ⟨f', hf', he⟩ := encWork_walk (buildTrie table) unk (w ++ r) res hs (w ++ r) (buildTrie table) none 0 fuel
      (by simp) (by simp) (by omega)
    have hstart : EncSt.start (buildTrie table) (w ++ r) res =
      { seq := w ++ r, best := none, prev := buildTrie table, idx := 0, res := res } := rfl
    rw [hstart, he]
    have hwalk : ∃ d, walk (buildTrie table) (w ++ r) 0 none = some (d, w.length) := by
      rcases walk_spec (buildTrie table) (w ++ r) 0 none with ⟨h1, h2⟩ | ⟨w', d, hw', hwd, hmax, h2⟩
      · exfalso
        have := h1 w (List.prefix_append _ _)
        rw [lookup_buildTrie] at this
        obtain ⟨t, ht, rfl⟩ := List.mem_map.1 hm
        exact lastNamed_none this t ht rfl
      · refine ⟨d, ?_⟩
        rw [h2, Nat.zero_add]
        have a : w'.length ≤ w.length := by
          rw [lookup_buildTrie] at hwd
          have hmem := lastNamed_some hwd
          exact hl w' (List.mem_map.2 ⟨d, hmem.1, hmem.2⟩) hw'
        have b : ¬ w'.length < w.length := by
          intro hlt
          have := hmax w (List.prefix_append _ _) hlt
          rw [lookup_buildTrie] at this
          obtain ⟨t, ht, rfl⟩ := List.mem_map.1 hm
          exact lastNamed_none this t ht rfl
        rw [show w'.length = w.length by omega]
    obtain ⟨d, hd⟩ := hwalk
    rw [hd]
    dsimp only
    rw [List.drop_left]
    have hlen : (w ++ r).length = w.length + r.length := List.length_append
    rw [ih n _ f' (by omega) (by
      have : (n + 2) * (r.length + 1) ≤ (n + 2) * (w ++ r).length := Nat.mul_le_mul_left _ (by omega)
      omega), descend_buildTrie]
    simp only [starts, pieceLen, List.drop_left, List.map_cons, List.sum_cons, List.tail_cons, EncSt.start]
    rw [tl _ _ hg', Nat.add_comm, Nat.add_comm r.length]
  | @unk c r out hno hg' ih =>
    intro n res fuel hn hf
    have hs : c :: r ≠ [] := by simp
    have hm' := hmul n (c :: r).length
    obtain ⟨f', hf', he⟩ := encWork_walk (buildTrie table) unk (c :: r) res hs (c :: r) (buildTrie table) none 0 fuel
      (by simp) (by simp) (by omega)
    have hstart : EncSt.start (buildTrie table) (c :: r) res =
      { seq := c :: r, best := none, prev := buildTrie table, idx := 0, res := res } := rfl
    rw [hstart, he]
    have hwalk : walk (buildTrie table) (c :: r) 0 none = none := by
      rcases walk_spec (buildTrie table) (c :: r) 0 none with ⟨h1, h2⟩ | ⟨w', d, hw', hwd, hmax, h2⟩
      · exact h2
      · exfalso
        have hne : w' ≠ [] := by
          intro e; subst e
          simp [Trie.lookup, hroot] at hwd
        rw [lookup_buildTrie] at hwd
        have hmem := lastNamed_some hwd
        exact hno w' (List.mem_map.2 ⟨d, hmem.1, hmem.2⟩) hne hw'
    rw [hwalk]
    dsimp only
    rw [show (c :: r).drop 1 = r from rfl, ih n _ f' (by simp at hn; omega) (by
      have : (n + 2) * (r.length + 1) = (n + 2) * (c :: r).length := by simp
      omega), descend_buildTrie]
    simp only [starts, pieceLen, List.drop_one, List.tail_cons, List.map_cons, List.sum_cons, EncSt.start]
    rw [tl _ _ hg', Nat.add_comm, Nat.add_comm r.length]

end Verif
