import Verif.Spec.Accept
import Verif.Props.Accept
import Verif.Props.LearnCli
/-!
# Property C113: exactly which tables make a scheme, and which model files load

-/

namespace Verif
open Spec

theorem validateReserved_iff {tbl : List Ty} : validateReserved tbl = .ok () ↔ Reserved6 tbl := by
  have e : reservedNames = [lit "<pad>", lit "<unk>", lit "<s>", lit "</s>", lit "<cls>", [0x2581]] := by decide
  constructor
  · intro h
    rw [Reserved6, ← e]
    apply List.ext_getElem?
    intro j
    by_cases hj : j < 6
    · obtain ⟨t, h1, h2⟩ := validateReserved_ok h j hj
      have hl : j < reservedNames.length := by simpa [reservedNames] using hj
      rw [List.getElem?_take_of_lt hj, List.getElem?_map, h1, List.getElem?_eq_getElem hl, Option.map_some, h2]
    · rw [List.getElem?_eq_none (by rw [List.length_take]; omega), List.getElem?_eq_none (by rw [e]; simp; omega)]
  · intro h
    apply validateReserved_of_names
    rw [e]; exact h

theorem buildTrie_data {tbl : List Ty} : (buildTrie tbl).data = none ↔ ∀ t ∈ tbl, t.name ≠ [] := by
  have h0 : (buildTrie tbl).data = lastNamed tbl [] := by
    have : (buildTrie tbl).lookup [] = lastNamed tbl [] := lookup_buildTrie tbl []
    simpa [Trie.lookup] using this
  rw [h0]
  constructor
  · intro h t ht hn
    exact lastNamed_none h t ht hn
  · intro h
    cases hl : lastNamed tbl [] with
    | none => rfl
    | some t => exact absurd (lastNamed_some hl).2 (h t (lastNamed_some hl).1)

theorem byteVocab_eq : byteVocab = defaultBytes := by decide +kernel

/-- C113, tables: a scheme can be made of a table exactly if it is accepted; otherwise an AssertionError is raised, or an IndexError if it has fewer than
six types. -/
theorem C113_make (k : Kind) (tbl : List Ty) :
    (Accepted k tbl → ∃ s, Scheme.make k tbl = .ok s ∧ s.kind = k ∧ (tbl ≠ [] ∨ k ≠ .byte → s.table = tbl) ∧
      (tbl = [] ∧ k = .byte → s.table = defaultBytes)) ∧
    (¬ Accepted k tbl → Scheme.make k tbl = .error .assertion ∨ tbl.length < 6 ∧ Scheme.make k tbl = .error .index) := by
  have hv : ∀ tbl, ¬ Reserved6 tbl → validateReserved tbl = .error .assertion ∨ tbl.length < 6 ∧ validateReserved tbl = .error .index := by
    intro tbl hr
    have hn : validateReserved tbl ≠ .ok () := fun h => hr (validateReserved_iff.1 h)
    have key : ∀ (l : List Str) (i : Nat), validateReserved.go tbl l i = .ok () ∨ validateReserved.go tbl l i = .error .assertion ∨
        tbl.length < i + l.length ∧ validateReserved.go tbl l i = .error .index := by
      intro l
      induction l with
      | nil => intro i; exact Or.inl rfl
      | cons n l ih =>
        intro i
        simp only [validateReserved.go]
        cases ht : tbl[i]? with
        | none =>
          have := List.getElem?_eq_none_iff.1 ht
          exact Or.inr (Or.inr ⟨by simp only [List.length_cons]; omega, rfl⟩)
        | some t =>
          dsimp only
          split
          · rcases ih (i + 1) with h | h | ⟨h1, h2⟩
            · exact Or.inl h
            · exact Or.inr (Or.inl h)
            · exact Or.inr (Or.inr ⟨by simp only [List.length_cons]; omega, h2⟩)
          · exact Or.inr (Or.inl rfl)
    rcases key reservedNames 0 with h | h | h
    · exact absurd h hn
    · exact Or.inl h
    · refine Or.inr ⟨?_, h.2⟩
      have := h.1
      simpa [reservedNames] using this
  have hinv : ∀ k tbl, ¬ (tbl.map (·.name)).Nodup → mkInvertible k tbl = .error .assertion := by
    intro k tbl hd
    cases hm : mkInvertible k tbl with
    | ok s => exact absurd (mkInvertible_ok hm).2.2.2 hd
    | error e =>
      simp only [mkInvertible] at hm
      split at hm
      · cases hm
      · exact hm ▸ rfl
  have hno : ∀ tbl : List Ty, (tbl.map (·.name)).Nodup → ∀ k, ∃ s, mkInvertible k tbl = .ok s ∧ s.kind = k ∧ s.table = tbl := by
    intro tbl h k
    obtain ⟨s, hs⟩ := mkInvertible_of_nodup k h
    exact ⟨s, hs, (mkInvertible_ok hs).2.1, (mkInvertible_ok hs).1⟩
  constructor
  · intro h
    cases k with
    | word =>
      obtain ⟨s, a, b, c⟩ := hno tbl h.2 .word
      exact ⟨s, by simp only [Scheme.make, validateReserved_iff.2 h.1, a], b, fun _ => c, by simp⟩
    | char =>
      obtain ⟨s, a, b, c⟩ := hno tbl h.2 .char
      exact ⟨s, by simp only [Scheme.make, validateReserved_iff.2 h.1, a], b, fun _ => c, by simp⟩
    | bpe =>
      refine ⟨_, by simp only [Scheme.make, validateReserved_iff.2 h.1, buildTrie_data.2 h.2]; rfl, rfl, fun _ => rfl, by simp⟩
    | clasz =>
      obtain ⟨s, a, b, c⟩ := hno tbl h .clasz
      exact ⟨s, by simp only [Scheme.make, a], b, fun _ => c, by simp⟩
    | byte =>
      by_cases he : tbl = []
      · subst he
        obtain ⟨s, a, b, c⟩ := hno byteVocab byteVocab_nodup .byte
        refine ⟨s, by simp only [Scheme.make, List.isEmpty_nil, if_true, a], b, fun h => by simp at h, fun _ => ?_⟩
        rw [c, byteVocab_eq]
      · obtain ⟨s, a, b, c⟩ := hno tbl h .byte
        have hem : tbl.isEmpty = false := by cases tbl <;> simp_all
        exact ⟨s, by simp only [Scheme.make, hem]; exact a, b, fun _ => c, fun h => absurd h.1 he⟩
  · intro h
    cases k with
    | word =>
      by_cases hr : Reserved6 tbl
      · left
        simp only [Scheme.make, validateReserved_iff.2 hr]
        exact hinv _ _ fun hn => h ⟨hr, hn⟩
      · rcases hv tbl hr with hv | ⟨hl, hv⟩
        · left; simp only [Scheme.make, hv]
        · right; refine ⟨hl, ?_⟩; simp only [Scheme.make, hv]
    | char =>
      by_cases hr : Reserved6 tbl
      · left
        simp only [Scheme.make, validateReserved_iff.2 hr]
        exact hinv _ _ fun hn => h ⟨hr, hn⟩
      · rcases hv tbl hr with hv | ⟨hl, hv⟩
        · left; simp only [Scheme.make, hv]
        · right; refine ⟨hl, ?_⟩; simp only [Scheme.make, hv]
    | bpe =>
      by_cases hr : Reserved6 tbl
      · left
        have hd : (buildTrie tbl).data ≠ none := fun hn => h ⟨hr, buildTrie_data.1 hn⟩
        have : (buildTrie tbl).data.isSome = true := Option.isSome_iff_ne_none.2 hd
        simp only [Scheme.make, validateReserved_iff.2 hr, this, if_true]
      · rcases hv tbl hr with hv | ⟨hl, hv⟩
        · left; simp only [Scheme.make, hv]
        · right; refine ⟨hl, ?_⟩; simp only [Scheme.make, hv]
    | clasz => exact Or.inl (hinv _ _ h)
    | byte =>
      have hem : tbl.isEmpty = false := by
        cases tbl with
        | nil => exact absurd (by simp [Accepted]) h
        | cons a l => rfl
      left
      simp only [Scheme.make, hem]
      exact hinv _ _ h

example : Accepted .word (exTable Level.word ["a", "b"]) ∧ ¬ Accepted .word (exTable Level.word ["a", "a"]) ∧
    Accepted .bpe (exTable Level.word ["a", "a"]) := by
  refine ⟨⟨by unfold Reserved6; decide, by decide⟩, fun h => absurd h.2 (by decide), by unfold Reserved6; decide, by decide⟩

theorem headerKind_iff (h : Header) (k : Kind) : headerKind (some h) = .ok k ↔ Says h k := by
  unfold Says
  simp only [headerKind]
  cases ha : h.any with
  | false => simp
  | true =>
    simp only [if_true, true_and]
    cases hs : h.scheme with
    | some n =>
      simp only [Option.some.injEq, List.mem_cons, List.not_mem_nil, or_false, Prod.mk.injEq, reduceCtorEq, false_and, or_false]
      constructor
      · intro hk
        refine ⟨n, rfl, ?_⟩
        simp only [registry] at hk
        repeat' (split at hk <;> try (cases hk; rename_i e; simp [e]))
        cases hk
      · rintro ⟨n', rfl, h⟩
        rcases h with ⟨rfl, rfl⟩ | ⟨rfl, rfl⟩ | ⟨rfl, rfl⟩ | ⟨rfl, rfl⟩ | ⟨rfl, rfl⟩ | ⟨rfl, rfl⟩ <;> decide
    | none =>
      simp only [reduceCtorEq, false_and, exists_false, false_or, true_and]
      cases hm : h.maxLevel with
      | none => simp
      | some m =>
        simp only [Option.some.injEq]
        constructor
        · intro hk
          refine ⟨m, rfl, ?_⟩
          split at hk
          · rename_i hlt
            by_cases hge : -4 ≤ m
            · have key : ∀ n : Fin 8, ∀ k, pyIndex [Kind.char, Kind.bpe, Kind.word, Kind.clasz] ((n : Int) - 4) = .ok k →
                  ((n : Int) - 4, k) ∈ [((0 : Int), Kind.char), (1, .bpe), (2, .word), (3, .clasz),
                    (-4, .char), (-3, .bpe), (-2, .word), (-1, .clasz)] := by
                intro n k
                revert k
                revert n
                have : ∀ n : Fin 8, ∀ k ∈ [Kind.char, Kind.bpe, Kind.word, Kind.clasz, Kind.byte], pyIndex [Kind.char, Kind.bpe, Kind.word, Kind.clasz] ((n : Int) - 4) = .ok k →
                  ((n : Int) - 4, k) ∈ [((0 : Int), Kind.char), (1, .bpe), (2, .word), (3, .clasz),
                    (-4, .char), (-3, .bpe), (-2, .word), (-1, .clasz)] := by decide
                intro n k
                exact this n k (by cases k <;> decide)
              have := key ⟨(m + 4).toNat, by omega⟩ k
              have e : (((⟨(m + 4).toNat, by omega⟩ : Fin 8) : Nat) : Int) - 4 = m := by
                simp only
                omega
              rw [e] at this
              exact this hk
            · exfalso
              simp only [pyIndex] at hk
              rw [if_pos (by simp only [List.length_cons, List.length_nil]; split <;> omega)] at hk
              cases hk
          · cases hk
        · rintro ⟨m', rfl, h⟩
          simp only [List.mem_cons, List.not_mem_nil, or_false, Prod.mk.injEq] at h
          rcases h with ⟨rfl, rfl⟩ | ⟨rfl, rfl⟩ | ⟨rfl, rfl⟩ | ⟨rfl, rfl⟩ | ⟨rfl, rfl⟩ | ⟨rfl, rfl⟩ | ⟨rfl, rfl⟩ | ⟨rfl, rfl⟩ <;> decide

/-- C113, model files: a text is loaded as a scheme of kind `k` with the table `tbl` exactly if its first line is a header that says `k` and the other
lines are the rows of an accepted table; for the byte scheme no rows at all stand for the default table. -/
theorem C113_load (J : Json) {text : Str} {ls : List Str} (hl : Lines text ls) (k : Kind) (tbl : List Ty) :
    (∃ s, loadScheme J text = .ok s ∧ s.kind = k ∧ s.table = tbl) ↔
      ∃ l0 rest s hd rows, ls = l0 :: rest ∧ Trimmed l0 (35 :: 123 :: s) ∧ J.loads (123 :: s) = .ok hd ∧ Says hd k ∧ RowsOf rest rows ∧
        Accepted k rows ∧ (tbl = rows ∧ (rows ≠ [] ∨ k ≠ .byte) ∨ rows = [] ∧ k = .byte ∧ tbl = defaultBytes) := by
  constructor
  · rintro ⟨s, h, hk, ht⟩
    simp only [loadScheme] at h
    cases hr : readVocab J text with
    | error e => rw [hr] at h; cases h
    | ok p =>
      obtain ⟨rows, hd⟩ := p
      rw [hr] at h
      simp only at h
      cases hh : headerKind hd with
      | error e => rw [hh] at h; cases h
      | ok k' =>
        rw [hh] at h
        simp only at h
        rcases (C107_read J hl rows hd).1 hr with ⟨l0, rest, st, hd', h1, h2, h3, h4, h5⟩ | ⟨l0, rest, h1, h2, h3, h4⟩
        · subst h4
          have hacc : Accepted k' rows := by
            by_contra hc
            rcases (C113_make k' rows).2 hc with h' | h'
            · rw [h'] at h; cases h
            · rw [h'.2] at h; cases h
          obtain ⟨s', m1, m2, m3, m4⟩ := (C113_make k' rows).1 hacc
          have : s' = s := by rw [m1] at h; cases h; rfl
          subst this
          have hkk : k' = k := by rw [← m2, hk]
          subst hkk
          refine ⟨l0, rest, st, hd', rows, h1, h2, h3, (headerKind_iff _ _).1 hh, h5, hacc, ?_⟩
          by_cases hb : rows = [] ∧ k' = .byte
          · obtain ⟨rfl, rfl⟩ := hb
            refine Or.inr ⟨rfl, rfl, ?_⟩
            rw [← ht]
            exact m4 ⟨rfl, rfl⟩
          · have : rows ≠ [] ∨ k' ≠ .byte := by
              by_cases h : rows = []
              · exact Or.inr fun h' => hb ⟨h, h'⟩
              · exact Or.inl h
            exact Or.inl ⟨by rw [← ht, m3 this], this⟩
        · subst h3
          cases hh
  · rintro ⟨l0, rest, st, hd, rows, h1, h2, h3, h4, h5, h6, h7⟩
    have hr := (C107_read J hl rows (some hd)).2 (Or.inl ⟨l0, rest, st, hd, h1, h2, h3, rfl, h5⟩)
    obtain ⟨s, m1, m2, m3, m4⟩ := (C113_make k rows).1 h6
    refine ⟨s, by simp only [loadScheme, hr, (headerKind_iff _ _).2 h4, m1], m2, ?_⟩
    rcases h7 with ⟨rfl, h⟩ | ⟨rfl, rfl, rfl⟩
    · exact m3 h
    · exact m4 ⟨rfl, rfl⟩

/-- an old file without the name of the scheme: level 2 means words -/
example : (match loadScheme pyJson (lit "#" ++ pyJson.dumps { maxLevel := some 0 } ++ lit "\n0\tyes\t0\t1\n") with
    | .ok s => some s.kind | .error _ => none) = none ∧
  (match loadScheme pyJson (lit "#" ++ pyJson.dumps { maxLevel := some 3 } ++ lit "\n0\tyes\t0\t1\n") with
    | .ok s => some (s.kind, s.table) | .error _ => none) = some (.clasz, [⟨lit "yes", 0, 0, 1, []⟩]) := by decide +kernel

end Verif
