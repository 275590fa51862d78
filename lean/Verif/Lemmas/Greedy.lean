import Verif.Lemmas.Trie
import Verif.Lemmas.Str
import Verif.Spec.Greedy
/-! # The trie loop computes the greedy segmentation -/

namespace Verif
open Spec

/-- the segmentation is unique -/
theorem Spec.Greedy.unique {names : List Str} {s : Str} {o1 o2 : List (Option Str)}
    (h1 : Greedy names s o1) (h2 : Greedy names s o2) : o1 = o2 := by
  induction h1 generalizing o2 with
  | nil =>
    generalize hs : ([] : Str) = s at h2
    cases h2 with
    | nil => rfl
    | tok hw => simp at hs; exact absurd hs.1 (by simpa using hw)
    | unk => simp at hs
  | @tok w r out hw hm hl _ ih =>
    generalize hs : w ++ r = s at h2
    cases h2 with
    | nil => simp at hs; exact absurd hs.1 hw
    | @tok w' r' out' hw' hm' hl' hr' =>
      have a := hl w' hm' (by rw [hs]; exact List.prefix_append _ _)
      have b := hl' w hm (by rw [← hs]; exact List.prefix_append _ _)
      have hlen : w.length = w'.length := by omega
      have := List.append_inj hs hlen
      obtain ⟨rfl, rfl⟩ := this
      rw [ih hr']
    | unk hn => exact absurd (by rw [← hs]; exact List.prefix_append _ _) (hn w hm hw)
  | @unk c r out hn _ ih =>
    generalize hs : c :: r = s at h2
    cases h2 with
    | nil => simp at hs
    | @tok w' r' out' hw' hm' hl' hr' =>
      exact absurd (by rw [hs]; exact List.prefix_append _ _) (hn w' hm' hw')
    | unk _ hr' => cases hs; rw [ih hr']

/-- longest data prefix found when walking down from `t`; `i` characters were consumed, `best` is the last hit -/
def walk (t : Trie Ty) : Str → Nat → Option (Ty × Nat) → Option (Ty × Nat)
  | s, i, best =>
    let best' := match t.data with
      | some d => some (d, i)
      | none => best
    match s with
    | [] => best'
    | c :: cs => match t.child c with
      | some k => walk k cs (i + 1) best'
      | none => best'

/-- one round of the loop: from a state inside a walk to the state after emitting -/
theorem encLoop_walk (root : Trie Ty) (unk : Int) (seq : Str) (res : List Int) (hseq : seq ≠ []) :
    ∀ (rest : Str) (t : Trie Ty) (best : Option (Ty × Nat)) (i fuel : Nat),
      seq.drop i = rest → i + rest.length = seq.length → rest.length + 1 ≤ fuel →
      ∃ fuel', fuel ≤ fuel' + rest.length + 1 ∧
        encLoop root unk fuel { seq := seq, best := best, prev := t, idx := i, res := res } =
        encLoop root unk fuel' (match walk t rest i best with
          | some (d, j) => EncSt.start root (seq.drop j) (res ++ [(d.idx : Int)])
          | none => EncSt.start root (seq.drop 1) (res ++ [unk])) := by
  intro rest
  induction rest with
  | nil =>
    intro t best i fuel hd hl hf
    obtain ⟨f, rfl⟩ : ∃ f, fuel = f + 1 := ⟨fuel - 1, by simp at hf; omega⟩
    refine ⟨f, by simp, ?_⟩
    have hi : i = seq.length := by simpa using hl
    have hcond : EncSt.cond { seq := seq, best := best, prev := t, idx := i, res := res } = true := by
      simp [EncSt.cond, hseq, hi]
    rw [encLoop, if_pos hcond]
    have hn : seq[i]? = none := by simp [hi]
    simp only [EncSt.step, hn, walk, EncSt.step.emit]
    rfl
  | cons c cs ih =>
    intro t best i fuel hd hl hf
    obtain ⟨f, rfl⟩ : ∃ f, fuel = f + 1 := ⟨fuel - 1, by simp at hf; omega⟩
    have hi : i < seq.length := by simp at hl; omega
    have hcond : EncSt.cond { seq := seq, best := best, prev := t, idx := i, res := res } = true := by
      simp [EncSt.cond, hseq]; omega
    have hc : seq[i]? = some c := by
      have := congrArg (fun l => l[0]?) hd
      simpa using this
    have hd' : seq.drop (i + 1) = cs := by
      have := congrArg (List.drop 1) hd
      simpa [List.drop_drop] using this
    rw [encLoop, if_pos hcond]
    simp only [EncSt.step, hc]
    cases hk : t.child c with
    | some k =>
      obtain ⟨f', hf', he⟩ := ih k (match t.data with | some d => some (d, i) | none => best) (i + 1) f hd'
        (by simp at hl; omega) (by simp at hf; omega)
      refine ⟨f', by simp; omega, ?_⟩
      simp only [walk, hk]
      exact he
    | none =>
      refine ⟨f, by simp, ?_⟩
      simp only [EncSt.step.emit, walk, hk]
      rfl

/-- what `walk` finds: a data node at some prefix length, longest possible -/
theorem walk_spec (t : Trie Ty) (s : Str) : ∀ (i : Nat) (best : Option (Ty × Nat)),
    (∀ r, r <+: s → t.lookup r = none) ∧ walk t s i best = best ∨
    ∃ w d, w <+: s ∧ t.lookup w = some d ∧ (∀ r, r <+: s → w.length < r.length → t.lookup r = none) ∧
      walk t s i best = some (d, i + w.length) := by
  induction s generalizing t with
  | nil =>
    intro i best
    cases hd : t.data with
    | none => left; refine ⟨?_, by simp [walk, hd]⟩
              intro r hr; have : r = [] := by simpa using hr
              subst this; simp [Trie.lookup, hd]
    | some d => right; refine ⟨[], d, by simp, by simp [Trie.lookup, hd], ?_, by simp [walk, hd]⟩
                intro r hr hlt; have : r = [] := by simpa using hr
                subst this; simp at hlt
  | cons c cs ih =>
    intro i best
    have stuck : t.child c = none → ∀ r, r <+: c :: cs → r ≠ [] → t.lookup r = none := by
      intro hk r hr hne
      cases r with
      | nil => exact absurd rfl hne
      | cons a as =>
        obtain ⟨rfl, _⟩ := List.cons_prefix_cons.1 hr
        simp [Trie.lookup, Trie.find_cons, hk]
    cases hk : t.child c with
    | none =>
      cases hd : t.data with
      | none =>
        left; refine ⟨?_, by simp [walk, hd, hk]⟩
        intro r hr
        by_cases hne : r = []
        · subst hne; simp [Trie.lookup, hd]
        · exact stuck hk r hr hne
      | some d =>
        right; refine ⟨[], d, by simp, by simp [Trie.lookup, hd], ?_, by simp [walk, hd, hk]⟩
        intro r hr hlt
        exact stuck hk r hr (by intro e; subst e; simp at hlt)
    | some k =>
      have lk : ∀ r, t.lookup (c :: r) = k.lookup r := by
        intro r; simp [Trie.lookup, Trie.find_cons, hk]
      rcases ih k (i + 1) (match t.data with | some d => some (d, i) | none => best) with ⟨h1, h2⟩ | ⟨w, d, hw, hwd, hmax, he⟩
      · cases hd : t.data with
        | none =>
          left; refine ⟨?_, by simp only [walk, hk, h2]; simp [hd]⟩
          intro r hr
          cases r with
          | nil => simp [Trie.lookup, hd]
          | cons a as =>
            obtain ⟨rfl, has⟩ := List.cons_prefix_cons.1 hr
            rw [lk]; exact h1 as has
        | some d =>
          right; refine ⟨[], d, by simp, by simp [Trie.lookup, hd], ?_, by simp only [walk, hk, h2]; simp [hd]⟩
          intro r hr hlt
          cases r with
          | nil => simp at hlt
          | cons a as =>
            obtain ⟨rfl, has⟩ := List.cons_prefix_cons.1 hr
            rw [lk]; exact h1 as has
      · right
        refine ⟨c :: w, d, by simpa using hw, by rw [lk]; exact hwd, ?_, by simp only [walk, hk, he]; simp; omega⟩
        intro r hr hlt
        cases r with
        | nil => simp at hlt
        | cons a as =>
          obtain ⟨rfl, has⟩ := List.cons_prefix_cons.1 hr
          rw [lk]; exact hmax as has (by simpa using hlt)

/-- The loop terminates within the fuel and emits, for each greedy piece, the index of the last type of that
name, or `unk`. -/
theorem encLoop_greedy (table : List Ty) (unk : Int) (hroot : (buildTrie table).data = none) :
    ∀ (n : Nat) (seq : Str) (res : List Int) (fuel : Nat), seq.length ≤ n → (n + 2) * (seq.length + 1) ≤ fuel →
      ∃ (out : List (Option Str)) (ids : List Int), Greedy (table.map (·.name)) seq out ∧
        encLoop (buildTrie table) unk fuel (EncSt.start (buildTrie table) seq res) = .ok (res ++ ids) ∧
        List.Forall₂ (fun o (i : Int) => match o with
          | some w => ∃ t, lastNamed table w = some t ∧ i = (t.idx : Int)
          | none => i = unk) out ids := by
  intro n seq
  induction hm : seq.length using Nat.strongRecOn generalizing seq with
  | ind m ih =>
    intro res fuel hn hf
    by_cases hs : seq = []
    · subst hs
      refine ⟨[], [], .nil, ?_, .nil⟩
      obtain ⟨f, rfl⟩ : ∃ f, fuel = f + 1 := ⟨fuel - 1, by
        have : 0 < (n + 2) * (m + 1) := Nat.mul_pos (by omega) (by omega)
        omega⟩
      simp [encLoop, EncSt.cond, EncSt.start]
    · have hpos : 0 < seq.length := List.length_pos_iff.2 hs
      have hmul : (n + 2) * (m + 1) = (n + 2) * m + (n + 2) := by rw [Nat.mul_add, Nat.mul_one]
      obtain ⟨f', hf', he⟩ := encLoop_walk (buildTrie table) unk seq res hs seq (buildTrie table) none 0 fuel
        (by simp) (by simp) (by
          have : n + 2 ≤ fuel := by omega
          omega)
      have hstart : EncSt.start (buildTrie table) seq res =
        { seq := seq, best := none, prev := buildTrie table, idx := 0, res := res } := rfl
      rw [hstart, he]
      -- fuel left is enough for any strictly shorter text
      have hleft : ∀ k, k < m → (n + 2) * (k + 1) ≤ f' := by
        intro k hk
        have h1 : (n + 2) * (k + 1) ≤ (n + 2) * m := Nat.mul_le_mul_left _ (by omega)
        omega
      rcases walk_spec (buildTrie table) seq 0 none with ⟨h1, h2⟩ | ⟨w, d, hw, hwd, hmax, h2⟩
      · -- no name is a prefix: unk
        rw [h2]
        obtain ⟨c, r, rfl⟩ : ∃ c r, seq = c :: r := List.exists_cons_of_ne_nil hs
        have hlt : r.length < m := by rw [← hm]; simp
        obtain ⟨out, ids, hg, hl, hfa⟩ := ih r.length hlt r rfl (res ++ [unk]) f' (by omega) (hleft _ hlt)
        refine ⟨none :: out, unk :: ids, .unk ?_ hg, by simpa using hl, .cons rfl hfa⟩
        intro w hw hne hp
        have := h1 w hp
        rw [lookup_buildTrie] at this
        obtain ⟨t, ht, rfl⟩ := List.mem_map.1 hw
        exact lastNamed_none this t ht rfl
      · rw [h2]
        have hwne : w ≠ [] := by
          intro e; subst e
          simp [Trie.lookup, hroot] at hwd
        obtain ⟨r, rfl⟩ := hw
        have hlt : r.length < m := by
          rw [← hm]; simp
          exact List.length_pos_iff.2 hwne
        rw [lookup_buildTrie] at hwd
        obtain ⟨out, ids, hg, hl, hfa⟩ := ih r.length hlt r rfl (res ++ [(d.idx : Int)]) f' (by omega) (hleft _ hlt)
        refine ⟨some w :: out, (d.idx : Int) :: ids, ?_, by simpa using hl, .cons ⟨d, hwd, rfl⟩ hfa⟩
        have hmem := lastNamed_some hwd
        refine .tok hwne (List.mem_map.2 ⟨d, hmem.1, hmem.2⟩) ?_ hg
        intro w' hw' hp
        by_contra hgt
        have := hmax w' hp (by omega)
        rw [lookup_buildTrie] at this
        obtain ⟨t, ht, rfl⟩ := List.mem_map.1 hw'
        exact lastNamed_none this t ht rfl

end Verif
