import Verif.Model.Report
import Verif.Props.Mapred
import Verif.Lemmas.Learn
/-! # Property C111: the report of word counts -/

namespace Verif
open Spec

/-- `s` is the number `n` in decimal digits without leading zeros, with commas between groups of three digits counted from the right -/
def Spec.Thousands (n : Nat) (s : Str) : Prop :=
  ∃ (g : Str) (gs : List Str), s = List.intercalate [44] (g :: gs) ∧ 1 ≤ g.length ∧ g.length ≤ 3 ∧ (∀ h ∈ gs, h.length = 3) ∧
    (∀ c ∈ (g :: gs).flatten, 48 ≤ c ∧ c ≤ 57) ∧ ((g :: gs) = [[48]] ∨ g.head? ≠ some 48) ∧
    n = (g :: gs).flatten.foldl (fun a c => 10 * a + (c - 48)) 0

theorem commaGroup_short {r : Str} (h : r.length ≤ 3) : commaGroup r = r := by
  match r, h with
  | [], _ => rfl
  | [_], _ => rfl
  | [_, _], _ => rfl
  | [_, _, _], _ => rfl

theorem intercalate_snoc (sep : Str) : ∀ (g : Str) (gs : List Str) (h : Str),
    List.intercalate sep (g :: (gs ++ [h])) = List.intercalate sep (g :: gs) ++ sep ++ h
  | g, [], h => by simp [List.intercalate]
  | g, x :: xs, h => by
    have := intercalate_snoc sep x xs h
    simp only [List.intercalate, List.cons_append, List.intersperse_cons_cons, List.flatten_cons, List.append_assoc] at this ⊢
    rw [this]

theorem commaGroup_spec : ∀ (k : Nat) (r : Str), r.length ≤ k → r ≠ [] → ∃ (g : Str) (gs : List Str), (commaGroup r).reverse = List.intercalate [44] (g :: gs) ∧
    1 ≤ g.length ∧ g.length ≤ 3 ∧ (∀ h ∈ gs, h.length = 3) ∧ (g :: gs).flatten = r.reverse
  | 0, r, hk, hr => absurd (List.length_eq_zero_iff.1 (by omega)) hr
  | k + 1, r, hk, hr => by
    by_cases h3 : r.length ≤ 3
    · refine ⟨r.reverse, [], ?_, ?_, by simpa using h3, by simp, by simp⟩
      · rw [commaGroup_short h3]; simp
      · have := List.length_pos_of_ne_nil hr; rw [List.length_reverse]; omega
    · obtain ⟨a, b, c, d, t, rfl⟩ : ∃ a b c d t, r = a :: b :: c :: d :: t := by
        match r, h3 with
        | a :: b :: c :: d :: t, _ => exact ⟨a, b, c, d, t, rfl⟩
        | [], h | [_], h | [_, _], h | [_, _, _], h => simp at h
      obtain ⟨g, gs, e, h1, h2, h4, h5⟩ := commaGroup_spec k (d :: t) (by simp at hk ⊢; omega) (by simp)
      refine ⟨g, gs ++ [[c, b, a]], ?_, h1, h2, ?_, ?_⟩
      · rw [commaGroup, intercalate_snoc, ← e]; simp
      · intro h hh
        rcases List.mem_append.1 hh with hh | hh
        · exact h4 h hh
        · rw [List.mem_singleton.1 hh]; rfl
      · rw [← List.cons_append, List.flatten_append, h5]; simp

theorem decAux_head : ∀ (k n : Nat), n < k → n ≠ 0 → (decAux k n).head? ≠ some 48
  | 0, n, h, _ => by omega
  | k + 1, n, h, h0 => by
    rw [decAux]
    split
    · simp; omega
    · have := decAux_head k (n / 10) (by omega) (by omega)
      intro h'
      rw [List.head?_append] at h'
      cases hd : (decAux k (n / 10)).head? with
      | some c => rw [hd] at h' this; simp at h'; exact this (by rw [h'])
      | none =>
        have : digitsVal (decAux k (n / 10)) 0 = some (n / 10) := digitsVal_decAux _ _ (by omega)
        rw [List.head?_eq_none_iff.1 hd] at this
        simp [digitsVal] at this
        omega

theorem digitsVal_foldl : ∀ (s : Str) (a n : Nat), digitsVal s a = some n → n = s.foldl (fun a c => 10 * a + (c - 48)) a
  | [], a, n, h => by simp [digitsVal] at h; simp [h]
  | c :: s, a, n, h => by
    rw [digitsVal] at h
    split at h
    · have := digitsVal_foldl s _ n h
      rw [List.foldl_cons, this]
      congr 1; omega
    · cases h

theorem commaStr_thousands (n : Nat) : Thousands n (commaStr n) := by
  have h0 : ¬ ((n : Int) < 0) := by omega
  rw [commaStr, if_neg h0, Int.natAbs_natCast]
  obtain ⟨g, gs, e, h1, h2, h3, h4⟩ := commaGroup_spec _ (natStr n).reverse (le_refl _) (by simpa using natStr_ne_nil n)
  rw [List.reverse_reverse] at h4
  refine ⟨g, gs, e, h1, h2, h3, by rw [h4]; exact natStr_digits n, ?_, by rw [h4]; exact digitsVal_foldl _ _ _ (digitsVal_natStr n)⟩
  by_cases hn : n = 0
  · left
    subst hn
    have : natStr 0 = [48] := by decide
    rw [this] at h4
    match g, gs, h1, h3, h4 with
    | [c], [], _, _, h4 => simpa using h4
    | c :: d :: g, _, _, _, h4 => simp at h4
    | [c], x :: xs, _, h3, h4 =>
      have hx := h3 x (by simp)
      simp at h4
      rw [h4.2.1] at hx
      simp at hx
  · right
    have := decAux_head (n + 1) n (by omega) hn
    change (natStr n).head? ≠ some 48 at this
    rw [← h4, List.flatten_cons, List.head?_append_of_ne_nil _ (by intro h; simp [h] at h1)] at this
    exact this

/-- the number is determined by the text -/
theorem Spec.Thousands.unique {n k : Nat} {s : Str} (h : Thousands n s) (h' : Thousands k s) : n = k := by
  have key : ∀ {n : Nat}, Thousands n s → n = (s.filter fun c => decide (c ≠ 44)).foldl (fun a c => 10 * a + (c - 48)) 0 := by
    rintro n ⟨g, gs, e, -, -, -, hd, -, hv⟩
    rw [hv, e]
    congr 1
    clear e hv
    induction gs generalizing g with
    | nil => simp only [List.flatten_cons, List.flatten_nil, List.append_nil, List.intercalate, List.intersperse_singleton]
             exact (List.filter_eq_self.2 fun c hc => by have := hd c (by simpa using hc); simp; omega).symm
    | cons x xs ih =>
      have := ih x fun c hc => hd c (by simp only [List.flatten_cons, List.mem_append] at hc ⊢; tauto)
      simp only [List.intercalate, List.intersperse_cons_cons, List.flatten_cons, List.filter_append] at this ⊢
      rw [← this, List.filter_eq_self.2 fun c hc => by have := hd c (by simp [hc]); simp; omega]
      simp
  rw [key h, key h']

/-- C111: for lines, at least one, the report has one line for each word: the word, a tabulator and the number of its occurrences with commas
between the thousands, the more frequent words first. -/
theorem C111_report {lines : List Str} (hne : lines ≠ []) {toks : List (List Str)} (ht : List.Forall₂ Tokens lines toks) :
    ∃ rows : List (Str × Nat), (reportMain lines).exc = none ∧
      List.Forall₂ (fun row text => ∃ num, text = row.1 ++ [9] ++ num ∧ Thousands row.2 num) rows (reportMain lines).out ∧
      (rows.map (·.1)).Nodup ∧ (∀ w n, (w, n) ∈ rows ↔ n = occurrences toks w ∧ 0 < n) ∧ rows.Pairwise fun a b => b.2 ≤ a.2 := by
  obtain ⟨d, h1, hnd, h2⟩ := C55_processes hne ht
  have hnat : ∀ p ∈ d, p.2 = ((p.2.toNat : Nat) : Int) := by
    intro p hp
    have := h2 p.1
    rw [Dict.get?_of_mem hnd (show (p.1, p.2) ∈ d from hp)] at this
    split at this
    · cases this
    · rw [Option.some.inj this]; simp
  have hperm := sortByFreq_perm d
  refine ⟨(sortByFreq d).map fun p => (p.1, p.2.toNat), by rw [reportMain, h1], ?_, ?_, ?_, ?_⟩
  · rw [reportMain, h1]
    simp only [List.forall₂_map_left_iff, List.forall₂_map_right_iff, List.forall₂_same]
    intro p hp
    refine ⟨_, rfl, ?_⟩
    rw [hnat p (hperm.mem_iff.1 hp)]
    exact commaStr_thousands _
  · rw [List.map_map]
    exact ((hperm.map Prod.fst).nodup_iff).2 hnd
  · intro w n
    rw [List.mem_map]
    constructor
    · rintro ⟨p, hp, e⟩
      have hp := hperm.mem_iff.1 hp
      cases e
      have := h2 p.1
      rw [Dict.get?_of_mem hnd (show (p.1, p.2) ∈ d from hp)] at this
      split at this
      · cases this
      · rename_i h0
        rw [Option.some.inj this]
        simp; omega
    · rintro ⟨rfl, h0⟩
      refine ⟨(w, (occurrences toks w : Int)), hperm.mem_iff.2 ?_, by simp⟩
      have := h2 w
      rw [if_neg (by omega)] at this
      exact Dict.mem_of_get? this
  · rw [List.pairwise_map]
    exact (sortByFreq_sorted d).imp fun h => Int.toNat_le_toNat h

/-- C111: without any line AssertionError is raised. -/
theorem C111_empty : reportMain [] = ⟨[], some .assertion⟩ := by decide +kernel

example : reportMain [lit "b a b", [], lit "b c a"] = ⟨[lit "b	3", lit "a	2", lit "c	1"], none⟩ ∧
    commaStr 1234567 = lit "1,234,567" ∧ commaStr 100 = lit "100" ∧ commaStr 0 = lit "0" := by decide +kernel

end Verif
