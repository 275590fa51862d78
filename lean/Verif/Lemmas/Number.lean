import Verif.Spec.Number
import Verif.Lemmas.Str
/-! # `int` reads the texts that denote numbers -/

namespace Verif
open Spec

theorem zeros_apart : ∀ z ∈ digitZeros, ∀ y ∈ digitZeros, z ≤ y + 9 → y ≤ z + 9 → z = y := by decide +kernel

theorem digitVal_iff {c d : Nat} : digitVal c = some d ↔ Digit c d := by
  unfold digitVal
  constructor
  · intro h
    rw [Option.map_eq_some_iff] at h
    obtain ⟨z, h1, rfl⟩ := h
    have h2 := List.find?_some h1
    simp only [Bool.and_eq_true, decide_eq_true_eq] at h2
    exact ⟨by omega, z, List.mem_of_find?_eq_some h1, by omega⟩
  · rintro ⟨hd, z, hz, rfl⟩
    cases h : digitZeros.find? fun y => y ≤ z + d && z + d ≤ y + 9 with
    | none =>
      rw [List.find?_eq_none] at h
      have := h z hz
      simp at this
      omega
    | some y =>
      have h2 := List.find?_some h
      simp only [Bool.and_eq_true, decide_eq_true_eq] at h2
      have := zeros_apart z hz y (List.mem_of_find?_eq_some h) (by omega) (by omega)
      subst this
      simp

theorem digit_ne {c d : Nat} (h : Digit c d) : c ≠ 95 ∧ c ≠ 43 ∧ c ≠ 45 ∧ isIntSpace c = false := by
  have key : ∀ z ∈ digitZeros, ∀ d ≤ 9, z + d ≠ 95 ∧ z + d ≠ 43 ∧ z + d ≠ 45 ∧ isIntSpace (z + d) = false := by decide +kernel
  obtain ⟨hd, z, hz, rfl⟩ := h
  exact key z hz d hd

/-- what may follow a digit -/
def Tail (s : Str) (acc n : Nat) : Prop :=
  ∃ (g : Str) (groups : List Str) (ds : List Nat), (∀ g ∈ groups, g ≠ []) ∧ s = List.intercalate [95] (g :: groups) ∧
    List.Forall₂ Digit (g ++ groups.flatten) ds ∧ n = ds.foldl (fun a d => 10 * a + d) acc

def Whole (s : Str) (acc n : Nat) : Prop :=
  ∃ (groups : List Str) (ds : List Nat), groups ≠ [] ∧ (∀ g ∈ groups, g ≠ []) ∧ s = List.intercalate [95] groups ∧
    List.Forall₂ Digit groups.flatten ds ∧ n = ds.foldl (fun a d => 10 * a + d) acc

theorem intercalate_two (g h : Str) (gs : List Str) : List.intercalate [95] (g :: h :: gs) = g ++ 95 :: List.intercalate [95] (h :: gs) := by
  simp [List.intercalate]

theorem intercalate_head (c : Nat) (g : Str) (gs : List Str) : List.intercalate [95] ((c :: g) :: gs) = c :: List.intercalate [95] (g :: gs) := by
  cases gs <;> simp [List.intercalate]

theorem whole_iff {c : Nat} {s : Str} {acc n : Nat} : Whole (c :: s) acc n ↔ ∃ d, Digit c d ∧ Tail s (10 * acc + d) n := by
  constructor
  · rintro ⟨groups, ds, h1, h2, h3, h4, h5⟩
    match groups, h1 with
    | [] :: gs, _ => exact absurd rfl (h2 [] (by simp))
    | (x :: g) :: gs, _ =>
      rw [intercalate_head] at h3
      simp only [List.cons.injEq] at h3
      obtain ⟨rfl, rfl⟩ := h3
      simp only [List.flatten_cons, List.cons_append] at h4
      cases h4 with
      | cons hd hr => exact ⟨_, hd, g, gs, _, fun k hk => h2 k (by simp [hk]), rfl, hr, h5⟩
  · rintro ⟨d, hd, g, gs, ds, h2, h3, h4, h5⟩
    refine ⟨(c :: g) :: gs, d :: ds, by simp, ?_, by rw [intercalate_head, h3], .cons hd h4, h5⟩
    intro k hk
    rcases List.mem_cons.1 hk with rfl | hk
    · simp
    · exact h2 k hk

theorem uintVal_iff : ∀ (s : Str) (acc n : Nat), (uintVal s acc false = some n ↔ Whole s acc n) ∧ (uintVal s acc true = some n ↔ Tail s acc n)
  | [], acc, n => by
    constructor
    · simp only [uintVal, Bool.false_eq_true, if_false, reduceCtorEq, false_iff]
      rintro ⟨groups, ds, h1, h2, h3, _⟩
      match groups, h1 with
      | [] :: gs, _ => exact h2 [] (by simp) rfl
      | (x :: g) :: gs, _ => rw [intercalate_head] at h3; cases h3
    · simp only [uintVal, if_true, Option.some.injEq]
      constructor
      · rintro rfl; exact ⟨[], [], [], by simp, rfl, .nil, rfl⟩
      · rintro ⟨g, gs, ds, h1, h2, h3, h4⟩
        match g, gs with
        | x :: g, gs => rw [intercalate_head] at h2; cases h2
        | [], k :: gs => rw [intercalate_two] at h2; cases h2
        | [], [] => cases h3; exact h4.symm
  | c :: s, acc, n => by
    have step : ∀ b, c ≠ 95 → (uintVal (c :: s) acc b = some n ↔ ∃ d, Digit c d ∧ Tail s (10 * acc + d) n) := by
      intro b hc
      rw [uintVal, if_neg hc]
      cases hd : digitVal c with
      | none =>
        simp only [reduceCtorEq, false_iff]
        rintro ⟨d, hd', _⟩
        rw [digitVal_iff.2 hd'] at hd
        cases hd
      | some d =>
        dsimp only
        rw [(uintVal_iff s _ n).2, Nat.mul_comm acc]
        constructor
        · exact fun h => ⟨d, digitVal_iff.1 hd, h⟩
        · rintro ⟨d', h1, h2⟩
          rw [digitVal_iff.2 h1] at hd
          cases hd
          exact h2
    constructor
    · rw [whole_iff]
      by_cases hc : c = 95
      · subst hc
        simp only [uintVal, if_true, Bool.false_eq_true, if_false, reduceCtorEq, false_iff]
        rintro ⟨d, hd, _⟩
        exact (digit_ne hd).1 rfl
      · exact step false hc
    · by_cases hc : c = 95
      · subst hc
        simp only [uintVal, if_true]
        rw [(uintVal_iff s acc n).1]
        constructor
        · rintro ⟨groups, ds, h1, h2, h3, h4, h5⟩
          obtain ⟨k, gs, rfl⟩ := List.exists_cons_of_ne_nil h1
          exact ⟨[], k :: gs, ds, h2, by rw [intercalate_two, h3]; rfl, h4, h5⟩
        · rintro ⟨g, gs, ds, h2, h3, h4, h5⟩
          match g, gs with
          | x :: g, gs =>
            rw [intercalate_head] at h3
            simp only [List.cons.injEq] at h3
            obtain ⟨rfl, _⟩ := h3
            cases h4 with
            | cons hd _ => exact absurd rfl (digit_ne hd).1
          | [], [] => simp [List.intercalate] at h3
          | [], k :: gs =>
            rw [intercalate_two] at h3
            simp only [List.nil_append, List.cons.injEq, true_and] at h3
            exact ⟨k :: gs, ds, by simp, h2, h3, h4, h5⟩
      · rw [step true hc]
        constructor
        · rintro ⟨d, hd, g, gs, ds, h2, h3, h4, h5⟩
          exact ⟨c :: g, gs, d :: ds, h2, by rw [intercalate_head, h3], .cons hd h4, h5⟩
        · rintro ⟨g, gs, ds, h2, h3, h4, h5⟩
          match g, gs with
          | x :: g, gs =>
            rw [intercalate_head] at h3
            simp only [List.cons.injEq] at h3
            obtain ⟨rfl, rfl⟩ := h3
            cases h4 with
            | cons hd hr => exact ⟨_, hd, g, gs, _, h2, rfl, hr, h5⟩
          | [], [] => simp [List.intercalate] at h3
          | [], k :: gs =>
            rw [intercalate_two] at h3
            simp only [List.nil_append, List.cons.injEq] at h3
            exact absurd h3.1 hc

theorem uintVal_number {s : Str} {n : Nat} : uintVal s 0 false = some n ↔ Number s n := (uintVal_iff s 0 n).1

theorem uintVal_chars : ∀ (s : Str) (acc n : Nat) (b : Bool), uintVal s acc b = some n → ∀ x ∈ s, x ≠ 43 ∧ x ≠ 45 ∧ isIntSpace x = false
  | [], _, _, _, _, x, hx => by simp at hx
  | c :: s, acc, n, b, h, x, hx => by
    rw [uintVal] at h
    split at h
    · rename_i hc
      split at h
      · rcases List.mem_cons.1 hx with rfl | hx
        · subst hc; decide
        · exact uintVal_chars s _ n _ h x hx
      · cases h
    · split at h
      · rename_i d hd
        rcases List.mem_cons.1 hx with rfl | hx
        · have := digit_ne (digitVal_iff.1 hd)
          exact ⟨this.2.1, this.2.2.1, this.2.2.2⟩
        · exact uintVal_chars s _ n _ h x hx
      · cases h

theorem intStrip_middle {a t b : Str} (ha : NumSpace a) (hb : NumSpace b) (ht : t ≠ []) (h0 : ∀ c, t.head? = some c → isIntSpace c = false)
    (h1 : ∀ c, t.getLast? = some c → isIntSpace c = false) : rstripP isIntSpace ((a ++ t ++ b).dropWhile isIntSpace) = t := by
  have hsp : ∀ {l : Str}, NumSpace l → ∀ c ∈ l, isIntSpace c = true := by
    intro l hl c hc
    obtain ⟨h2, h3⟩ := hl c hc
    simp only [isIntSpace, Bool.and_eq_true, Bool.not_eq_true', Bool.and_eq_false_iff, decide_eq_false_iff_not]
    exact ⟨white_iff.1 h2, by omega⟩
  have : (a ++ t ++ b).dropWhile isIntSpace = t ++ b := by
    rw [List.append_assoc, List.dropWhile_append_of_pos (hsp ha)]
    refine dropWhile_eq_self fun c hc => h0 c ?_
    obtain ⟨x, r, rfl⟩ := List.exists_cons_of_ne_nil ht
    exact hc
  rw [this, rstripP_append_all (hsp hb), rstripP_eq_self h1]

theorem numSpace_of {l : Str} (h : ∀ c ∈ l, isIntSpace c = true) : NumSpace l := by
  intro c hc
  have := h c hc
  simp only [isIntSpace, Bool.and_eq_true, Bool.not_eq_true', Bool.and_eq_false_iff, decide_eq_false_iff_not] at this
  exact ⟨white_iff.2 this.1, by omega⟩

/-- `int` accepts exactly the texts that denote numbers -/
theorem pyInt_iff {s : Str} {i : Int} : pyInt s = .ok i ↔ IntText s i := by
  constructor
  · intro h
    obtain ⟨b, hb, hb'⟩ := rstripP_suffix isIntSpace (s.dropWhile isIntSpace)
    have ha : s = s.takeWhile isIntSpace ++ s.dropWhile isIntSpace := List.takeWhile_append_dropWhile.symm
    have ha' : ∀ c ∈ s.takeWhile isIntSpace, isIntSpace c = true := fun c hc => (List.all_eq_true.1 (List.all_takeWhile (p := isIntSpace) (l := s))) c hc
    unfold pyInt at h
    generalize rstripP isIntSpace (s.dropWhile isIntSpace) = t at h hb
    generalize s.takeWhile isIntSpace = a at ha ha'
    rw [hb] at ha
    split at h
    · split at h
      · rename_i ds _ n hn
        cases h
        exact ⟨a, [45], ds, b, n, by rw [ha]; simp, numSpace_of ha', numSpace_of hb', uintVal_number.1 hn, Or.inr (Or.inr ⟨rfl, rfl⟩)⟩
      · cases h
    · split at h
      · rename_i ds _ n hn
        cases h
        exact ⟨a, [43], ds, b, n, by rw [ha]; simp, numSpace_of ha', numSpace_of hb', uintVal_number.1 hn, Or.inr (Or.inl ⟨rfl, rfl⟩)⟩
      · cases h
    · split at h
      · rename_i n hn
        cases h
        exact ⟨a, [], t, b, n, by rw [ha]; simp, numSpace_of ha', numSpace_of hb', uintVal_number.1 hn, Or.inl ⟨rfl, rfl⟩⟩
      · cases h
  · rintro ⟨a, sign, body, b, n, rfl, ha, hb, hn, hs⟩
    have hv := uintVal_number.2 hn
    have hc := uintVal_chars _ _ _ _ hv
    have hne : body ≠ [] := by rintro rfl; simp [uintVal] at hv
    have hlast : ∀ c, body.getLast? = some c → isIntSpace c = false := fun c h => (hc c (List.mem_of_getLast? h)).2.2
    have hsign : ∀ x, isIntSpace x = false → rstripP isIntSpace ((a ++ [x] ++ body ++ b).dropWhile isIntSpace) = x :: body := by
      intro x hx
      rw [show a ++ [x] ++ body ++ b = a ++ (x :: body) ++ b by simp]
      refine intStrip_middle ha hb (by simp) (fun c h => by cases h; exact hx) fun c h => hlast c ?_
      obtain ⟨y, r, rfl⟩ := List.exists_cons_of_ne_nil hne
      rwa [List.getLast?_cons_cons] at h
    rcases hs with ⟨rfl, rfl⟩ | ⟨rfl, rfl⟩ | ⟨rfl, rfl⟩
    · unfold pyInt
      rw [List.append_nil, intStrip_middle ha hb hne (fun c h => (hc c (List.mem_of_mem_head? h)).2.2) hlast]
      split
      · exact absurd rfl (hc 45 (by simp)).2.1
      · exact absurd rfl (hc 43 (by simp)).1
      · rw [hv]
    · unfold pyInt
      rw [hsign 43 (by decide)]
      simp only [hv]
    · unfold pyInt
      rw [hsign 45 (by decide)]
      simp only [hv]

theorem pyInt_cases (s : Str) : (∃ i, IntText s i ∧ pyInt s = .ok i) ∨ pyInt s = .error .value := by
  cases h : pyInt s with
  | ok i => exact Or.inl ⟨i, pyInt_iff.1 h, rfl⟩
  | error e =>
    right
    unfold pyInt at h
    split at h <;> split at h <;> cases h <;> rfl

end Verif
