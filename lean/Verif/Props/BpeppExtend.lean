import Verif.Props.Bpepp
import Verif.Props.Extend
/-!
# Properties C114 and C121: more rounds of merges

What a learner finds with more rounds and a lower threshold begins with what it finds with fewer; and it never needs more rounds to succeed.
-/

namespace Verif
open Spec

/-! ## C121: the two-level learner -/

theorem ppStep_grows {ord : List Nat → List Nat} {minEv level : Int} {S S' : PpState} (h : ppStep ord minEv level S = .ok (S', true)) :
    S.vocab <+: S'.vocab := by
  unfold ppStep at h
  split at h
  · cases h
  · dsimp only at h
    split at h
    · cases h
    · split at h
      · split at h
        · cases h
        · split at h
          · cases h
          · split at h
            · cases h
            · split at h
              · cases h
              · cases h; exact List.prefix_append _ _
      · cases h

theorem ppLoop_grows {ord : Nat → List Nat → List Nat} {minEv level : Int} (n : Nat) :
    ∀ {S S' : PpState}, ppLoop ord minEv level n S = .ok S' → S.vocab <+: S'.vocab := by
  induction n with
  | zero => intro S S' h; cases h; exact List.prefix_rfl
  | succ n ih =>
    intro S S' h
    rw [ppLoop] at h
    split at h
    · cases h
    · rename_i e
      exact (ppStep_grows e).trans (ih h)
    · rename_i e
      cases h
      rw [ppStep_false e]

/-- one round with a higher threshold: the same, or it ends -/
theorem ppStep_high {ord : List Nat → List Nat} {minEv minEv' level : Int} (hm : minEv' ≤ minEv) {S S' : PpState} {b : Bool}
    (h : ppStep ord minEv' level S = .ok (S', b)) : ppStep ord minEv level S = .ok (S', b) ∨ ppStep ord minEv level S = .ok (S, false) := by
  unfold ppStep at h ⊢
  split at h
  · cases h
  · rename_i p f hf
    dsimp only at h ⊢
    by_cases hlt : f < minEv
    · right; rw [if_pos hlt]
    · left
      rw [if_neg (by omega)] at h
      rw [if_neg hlt]
      exact h

theorem ppLoop_shorter {ord ord' : Nat → List Nat → List Nat} {minEv minEv' level : Int} (hm : minEv' ≤ minEv) {d : Nat} (n : Nat)
    (hord : ∀ i, i < n → ord i = ord' (i + d)) :
    ∀ {S S2 : PpState}, ppLoop ord' minEv' level (n + d) S = .ok S2 → ∃ S1, ppLoop ord minEv level n S = .ok S1 ∧ S1.vocab <+: S2.vocab := by
  induction n with
  | zero => intro S S2 h2; exact ⟨S, rfl, ppLoop_grows _ h2⟩
  | succ n ih =>
    intro S S2 h2
    have hg := ppLoop_grows _ h2
    rw [show n + 1 + d = (n + d) + 1 by omega, ppLoop] at h2
    simp only [ppLoop]
    split at h2
    · cases h2
    · rename_i S' e
      rw [← hord n (by omega)] at e
      rcases ppStep_high hm e with e | e
      · rw [e]
        exact ih (fun i hi => hord i (by omega)) h2
      · rw [e]
        exact ⟨S, rfl, hg⟩
    · rename_i S' e
      rw [← hord n (by omega)] at e
      cases h2
      rcases ppStep_high hm e with e | e
      · rw [e]
        exact ⟨_, rfl, List.prefix_rfl⟩
      · rw [e]
        exact ⟨S, rfl, hg⟩

/-- C121, merging: if learning succeeds with `n'` rounds and the threshold `minEv'`, then it succeeds with fewer rounds and a higher threshold (with the
nodes of the common rounds visited in the same order; the functions `ord` are given the number of rounds left), and gives the beginning of that table. -/
theorem C121_rounds {ord ord' : Nat → List Nat → List Nat} {tr : Troubles} {seqs : Corpus} {exc : Option Exc} {vocab v' : List Ty}
    {n n' minEv minEv' level : Int} (hn : n ≤ n') (hm : minEv' ≤ minEv)
    (hord : ∀ i, i < n.toNat → ord i = ord' (i + (n'.toNat - n.toNat)))
    (h : ppLearn ord' tr seqs exc vocab n' minEv' level = .ok v') : ∃ v, ppLearn ord tr seqs exc vocab n minEv level = .ok v ∧ v <+: v' := by
  unfold ppLearn at h ⊢
  split at h
  · cases h
  · split at h
    · cases h
    · rename_i S2 e2
      cases h
      rw [show n'.toNat = n.toNat + (n'.toNat - n.toNat) by omega] at e2
      obtain ⟨S1, e1, hp⟩ := ppLoop_shorter hm n.toNat hord e2
      rw [e1]
      exact ⟨_, rfl, hp⟩

/-- C121, from words: if learning succeeds with the size `vs'` and the threshold `minEv'`, then also with every smaller size above that of the initial
vocabulary and every higher threshold, and gives the beginning of that table; the initial vocabulary, which is what size -1 gives, is the beginning of
all. -/
theorem C121_words {ord ord' : Nat → List Nat → List Nat} {tf : Dict Str Int} {vs vs' minEv minEv' charMin wordMin : Int} {v' : List Ty}
    (hm : minEv' ≤ minEv) (hord : ∀ i : Nat, (i : Int) < vs → ord i = ord' (i + (vs' - vs).toNat))
    (h : ppSubwords ord' tf vs' minEv' charMin wordMin = .ok v') :
    ∃ v0, ppSubwords ord tf (-1) minEv charMin wordMin = .ok v0 ∧ v0 <+: v' ∧
      (v0.length < vs → vs ≤ vs' → ∃ v, ppSubwords ord tf vs minEv charMin wordMin = .ok v ∧ v0 <+: v ∧ v <+: v') := by
  unfold ppSubwords at h ⊢
  split at h
  · cases h
  · rename_i h1
    split at h
    · cases h
    · rename_i h2
      simp only [h1, h2, if_false, if_true] at h ⊢
      refine ⟨_, rfl, ?_⟩
      generalize hv : ppAlphabet (ppWords tf wordMin) charMin = v0 at h ⊢
      split at h
      · rename_i h3
        cases h
        exact ⟨List.prefix_rfl, fun a b => by omega⟩
      · unfold ppLearnCodesOf at h ⊢
        dsimp only at h ⊢
        split at h
        · cases h
        · rename_i h4
          split at h
          · cases h
          · rename_i h5
            split at h
            · cases h
            · rename_i unk hu
              have hgrow : ∀ {o : Nat → List Nat → List Nat} {m k : Int} {v : List Ty},
                  ppLearn o .replace ((ppWords tf wordMin).map fun p => (wordCodes (revIdx v0) unk p.1, p.2)) none v0 k m Level.subword = .ok v →
                  v0 <+: v := by
                intro o m k v hv
                unfold ppLearn at hv
                split at hv
                · cases hv
                · split at hv
                  · cases hv
                  · rename_i e
                    cases hv
                    exact ppLoop_grows _ e
              refine ⟨hgrow h, fun a b => ?_⟩
              rw [if_neg (by omega : ¬ vs = -1), if_neg h4, if_neg (by omega : ¬ ¬ (v0.length : Int) < vs)]
              have ho : ∀ i, i < (vs - v0.length).toNat → ord i = ord' (i + ((vs' - v0.length).toNat - (vs - v0.length).toNat)) := by
                intro i hi
                rw [hord i (by omega), show (vs' - vs).toNat = (vs' - v0.length).toNat - (vs - v0.length).toNat by omega]
              obtain ⟨v, e, hp⟩ := C121_rounds (ord := ord) (by omega) hm ho h
              exact ⟨v, e, hgrow e, hp⟩

/-- two and three rounds on "abcab" -/
example : outcome (ppLearn ordId .replace [([0, 1, 2, 0, 1], 1)] none (exChars ["a", "b", "c"]) 2 1 1) =
      .ok [(lit "a", 0), (lit "b", 0), (lit "c", 0), (lit "ab", 2), (lit "abc", 1)] ∧
    outcome (ppLearn ordId .replace [([0, 1, 2, 0, 1], 1)] none (exChars ["a", "b", "c"]) 3 0 1) =
      .ok [(lit "a", 0), (lit "b", 0), (lit "c", 0), (lit "ab", 2), (lit "abc", 1), (lit "abcab", 1)] := by decide +kernel
/-- sizes -1, 10 and 11 -/
example : ([-1, 10, 11].map fun vs => (outcome (ppSubwords ordId (ppCounts [lit "ab ac ab ", lit "d ac\tab"]) vs 2 2 2)).toOption.map (·.drop 6)) =
    [some [(lit "a", 5), (lit "b", 3), (lit "c", 2)], some [(lit "a", 5), (lit "b", 3), (lit "c", 2), (lit "ab", 3)],
      some [(lit "a", 5), (lit "b", 3), (lit "c", 2), (lit "ab", 3), (lit "ab▁", 3)]] := by decide +kernel

/-- C121 needs the same order: from "aab" and "aabaabaab" three rounds succeed in one order of the sets and fail in another. -/
theorem C121_order_needed :
    (ppLearn ordId .replace [([0, 0, 1], 1), ([0, 0, 1, 0, 0, 1, 0, 0, 1], 1)] none (exChars ["a", "b"]) 3 1 1).toOption.isSome = true ∧
    outcome (ppLearn ordRev .replace [([0, 0, 1], 1), ([0, 0, 1, 0, 0, 1, 0, 0, 1], 1)] none (exChars ["a", "b"]) 3 1 1) = .error .value := by
  constructor <;> decide +kernel

/-! ## C114 -/

/-- one round with a higher threshold: the same, or it ends with the same vocabulary -/
theorem learnStep_high {ord : List Nat → List Nat} {minEv minEv' level : Int} (hm : minEv' ≤ minEv) {S S' : LState} {b : Bool}
    (h : learnStep ord minEv' level S = .ok (S', b)) :
    learnStep ord minEv level S = .ok (S', b) ∨ ∃ S1, learnStep ord minEv level S = .ok (S1, false) := by
  unfold learnStep at h ⊢
  split at h
  · cases h
  · rename_i f _ _ _
    dsimp only at h ⊢
    by_cases hlt : f < minEv
    · right; rw [if_pos hlt]; exact ⟨_, rfl⟩
    · left
      rw [if_neg (by omega)] at h
      rw [if_neg hlt]
      exact h

theorem learnLoop_shorter {ord ord' : Nat → List Nat → List Nat} {minEv minEv' level : Int} (hm : minEv' ≤ minEv) {d : Nat} (n : Nat)
    (hord : ∀ i, i < n → ord i = ord' (i + d)) :
    ∀ {S S2 : LState}, learnLoop ord' minEv' level (n + d) S = .ok S2 → ∃ S1, learnLoop ord minEv level n S = .ok S1 ∧ S1.vocab <+: S2.vocab := by
  induction n with
  | zero => intro S S2 h2; exact ⟨S, rfl, learnLoop_grows _ h2⟩
  | succ n ih =>
    intro S S2 h2
    have hg := learnLoop_grows _ h2
    rw [show n + 1 + d = (n + d) + 1 by omega, learnLoop] at h2
    simp only [learnLoop]
    split at h2
    · cases h2
    · rename_i S' e
      rw [← hord n (by omega)] at e
      rcases learnStep_high hm e with e | ⟨S1, e⟩
      · rw [e]
        exact ih (fun i hi => hord i (by omega)) h2
      · rw [e]
        exact ⟨S1, rfl, learnStep_false e ▸ hg⟩
    · rename_i S' e
      rw [← hord n (by omega)] at e
      cases h2
      rcases learnStep_high hm e with e | ⟨S1, e⟩
      · rw [e]
        exact ⟨_, rfl, List.prefix_rfl⟩
      · rw [e]
        exact ⟨S1, rfl, learnStep_false e ▸ hg⟩

/-- C114, merging, for all sequences: if learning succeeds with `n'` rounds and the threshold `minEv'`, then it succeeds with fewer rounds and a higher
threshold (with the nodes of the common rounds visited in the same order), and gives the beginning of that table. -/
theorem C114_fewer_rounds {ord ord' : Nat → List Nat → List Nat} {minEv minEv' level : Int} {n n' : Nat} {seqs : Corpus} {vocab v' : List Ty}
    (hn : n ≤ n') (hm : minEv' ≤ minEv) (hord : ∀ i, i < n → ord i = ord' (i + (n' - n)))
    (h : learnCodes ord' seqs vocab n' minEv' level = .ok v') : ∃ v, learnCodes ord seqs vocab n minEv level = .ok v ∧ v <+: v' := by
  unfold learnCodes at h ⊢
  cases hI : bpeInit seqs vocab with
  | error e => rw [hI] at h; cases h
  | ok I =>
    rw [hI] at h
    dsimp only at h ⊢
    split at h
    · cases h
    · rename_i S2 e2
      cases h
      rw [show n' = n + (n' - n) by omega] at e2
      obtain ⟨S1, e1, hp⟩ := learnLoop_shorter hm n hord e2
      rw [e1]
      exact ⟨_, rfl, hp⟩

end Verif
