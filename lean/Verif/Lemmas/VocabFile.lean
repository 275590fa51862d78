import Verif.Spec.VocabFile
import Verif.Lemmas.Number
import Verif.Lemmas.File
/-! # Reading of vocabulary and frequency files -/

namespace Verif
open Spec

theorem white_false {c : Nat} : isWhite c = false ↔ isSpace c = false := by rw [isWhite_eq]

theorem trimmed_iff {l s : Str} : Trimmed l s ↔ strip l = s := by
  constructor
  · rintro ⟨a, b, rfl, ha, hb, h1, h2⟩
    exact strip_of_decomp ha hb (fun c hc => white_false.1 (h1 c hc)) (fun c hc => white_false.1 (h2 c hc))
  · rintro rfl
    obtain ⟨a, b, h1, h2, h3⟩ := strip_decomp l
    exact ⟨a, b, h1, h2, h3, fun c hc => white_false.2 (strip_head c hc), fun c hc => white_false.2 (strip_last c hc)⟩

theorem intercalate_splitOn (c : Nat) (s : Str) : List.intercalate [c] (splitOn (· == c) s) = s := by
  induction s with
  | nil => rfl
  | cons d s ih =>
    rw [splitOn]
    obtain ⟨w, ws, hw⟩ := List.exists_cons_of_ne_nil (splitOn_ne_nil (· == c) s)
    rw [hw] at ih ⊢
    split
    · rename_i hd
      have : d = c := by simpa using hd
      subst this
      rw [← ih]; simp [List.intercalate]
    · rw [consHead, ← ih]
      cases ws <;> simp [List.intercalate]

theorem columns_iff {c : Nat} {s : Str} {cols : List Str} (hne : cols ≠ []) :
    splitOn (· == c) s = cols ↔ s = List.intercalate [c] cols ∧ ∀ w ∈ cols, c ∉ w := by
  constructor
  · rintro rfl
    refine ⟨(intercalate_splitOn c s).symm, fun w hw hc => ?_⟩
    have := splitOn_pieces (p := (· == c)) s w hw c hc
    simp at this
  · rintro ⟨rfl, h⟩
    rw [← join_eq_intercalate]
    exact splitOn_join (p := (· == c)) (by simp) hne fun w hw d hd => by
      simp only [beq_eq_false_iff_ne, ne_eq]
      rintro rfl
      exact h w hw hd

theorem pyInts_iff {ws : List Str} {is : List Int} : pyInts ws = .ok is ↔ List.Forall₂ IntText ws is := by
  induction ws generalizing is with
  | nil =>
    simp only [pyInts, Except.ok.injEq, List.forall₂_nil_left_iff]
    exact eq_comm
  | cons w ws ih =>
    rw [pyInts]
    cases hw : pyInt w with
    | error e =>
      simp only [reduceCtorEq, false_iff]
      intro h
      cases h with
      | cons h1 _ => rw [pyInt_iff.2 h1] at hw; cases hw
    | ok i =>
      dsimp only
      cases hs : pyInts ws with
      | error e =>
        simp only [reduceCtorEq, false_iff]
        intro h
        cases h with
        | cons _ h2 => rw [ih.2 h2] at hs; cases hs
      | ok js =>
        simp only [Except.ok.injEq]
        constructor
        · rintro rfl; exact .cons (pyInt_iff.1 hw) (ih.1 hs)
        · intro h
          cases h with
          | cons h1 h2 =>
            rw [pyInt_iff.2 h1] at hw
            rw [ih.2 h2] at hs
            cases hw; cases hs; rfl

theorem pyInts_cases (ws : List Str) : (∃ is, List.Forall₂ IntText ws is ∧ pyInts ws = .ok is) ∨ pyInts ws = .error .value := by
  cases h : pyInts ws with
  | ok is => exact Or.inl ⟨is, pyInts_iff.1 h, rfl⟩
  | error e =>
    right
    induction ws with
    | nil => simp [pyInts] at h
    | cons w ws ih =>
      rw [pyInts] at h
      rcases pyInt_cases w with ⟨i, _, hi⟩ | hi
      · rw [hi] at h
        dsimp only at h
        cases hs : pyInts ws with
        | error e' => rw [hs] at h; cases h; exact ih hs
        | ok js => rw [hs] at h; cases h
      · rw [hi] at h; cases h; rfl

/-- the table while reading: entries not read yet are `None` -/
def partTable (n : Nat) (done : List Ty) : List (Option Ty) := done.map some ++ List.replicate (n - done.length) none

theorem partTable_length {n : Nat} {done : List Ty} (h : done.length ≤ n) : (partTable n done).length = n := by
  simp [partTable]; omega

theorem partTable_get {n : Nat} {done : List Ty} {i : Nat} {t : Ty} : (partTable n done)[i]? = some (some t) ↔ done[i]? = some t := by
  unfold partTable
  rw [List.getElem?_append]
  split
  · rename_i h
    rw [List.getElem?_map]
    cases done[i]? <;> simp
  · rename_i h
    simp only [List.length_map, Nat.not_lt] at h
    rw [List.getElem?_eq_none h, List.getElem?_replicate]
    split <;> simp

theorem entry_iff {n : Nat} {done : List Ty} (hn : done.length ≤ n) {k : Int} {t : Ty} : KidAt n done k t ↔ pyIndex (partTable n done) k = .ok (some t) := by
  have hp : ∀ i, (partTable n done)[i]? = some (some t) ↔ done[i]? = some t := fun i => partTable_get
  unfold KidAt pyIndex
  rw [partTable_length hn]
  dsimp only
  constructor
  · rintro ⟨i, hi, ht⟩
    have hj : (if k < 0 then k + (n : Int) else k) = i := by
      rcases hi with rfl | ⟨h1, h2⟩
      · rw [if_neg (by omega)]
      · rw [if_pos h1]; omega
    rw [hj, if_neg (by omega), Int.toNat_natCast, (hp i).2 ht]
  · intro h
    generalize hj : (if k < 0 then k + (n : Int) else k) = j at h
    split at h
    · cases h
    · rename_i h0
      split at h
      · rename_i x hx
        cases h
        refine ⟨j.toNat, ?_, (hp _).1 hx⟩
        split at hj <;> omega
      · cases h

theorem kids_iff {n : Nat} {done : List Ty} (hn : done.length ≤ n) {ks : List Int} {kids : List Ty} :
    List.Forall₂ (KidAt n done) ks kids ↔ ∃ ts, lookupKids (partTable n done) ks = .ok ts ∧ allKids ts = some kids := by
  induction ks generalizing kids with
  | nil =>
    simp only [List.forall₂_nil_left_iff, lookupKids, Except.ok.injEq]
    constructor
    · rintro rfl; exact ⟨[], rfl, rfl⟩
    · rintro ⟨ts, rfl, h⟩; cases h; rfl
  | cons k ks ih =>
    rw [lookupKids]
    constructor
    · intro h
      cases h with
      | @cons _ t _ kids h1 h2 =>
        obtain ⟨ts, h3, h4⟩ := ih.1 h2
        rw [(entry_iff hn).1 h1, h3]
        exact ⟨_, rfl, by rw [allKids, h4]⟩
    · rintro ⟨ts, h1, h2⟩
      cases hk : pyIndex (partTable n done) k with
      | error e => rw [hk] at h1; cases h1
      | ok o =>
        rw [hk] at h1
        dsimp only at h1
        cases hl : lookupKids (partTable n done) ks with
        | error e => rw [hl] at h1; cases h1
        | ok us =>
          rw [hl] at h1
          cases h1
          cases o with
          | none => cases h2
          | some t =>
            rw [allKids] at h2
            cases ha : allKids us with
            | none => rw [ha] at h2; cases h2
            | some vs =>
              rw [ha] at h2
              cases h2
              exact .cons ((entry_iff hn).2 hk) (ih.2 ⟨us, hl, ha⟩)

theorem entry_lt {n : Nat} {done : List Ty} (hn : done.length < n) {k : Int} {t : Ty} (h : KidAt n done k t) :
    k < (done.length : Int) ∧ k < (partTable n done).length := by
  obtain ⟨i, hi, ht⟩ := h
  have := (List.getElem?_eq_some_iff.1 ht).1
  rw [partTable_length (by omega)]
  omega

theorem row_iff {n : Nat} {done : List Ty} (hn : done.length < n) {line : Str} {t : Ty} :
    Row n done line t ↔ ∃ r, parseType (partTable n done) line = .ok r ∧ r.idx = (done.length : Int) ∧ allKids r.kids = some t.kids ∧
      r.name = t.name ∧ r.level = t.level ∧ r.freq = t.freq ∧ t.idx = done.length := by
  constructor
  · rintro ⟨c0, c2, c3, more, h1, h2, h3, h4, h5, h6, ws, ks, h7, h8, h9⟩
    have hcols := (columns_iff (c := 9) (by simp)).2 ⟨trimmed_iff.1 h1, h2⟩
    rw [h4] at h3
    have hall : (ks.all fun k => decide (k < (done.length : Int) ∧ k < ((partTable n done).length : Int))) = true := by
      rw [List.all_eq_true]
      intro k hk
      obtain ⟨i, hi, rfl⟩ := List.mem_iff_getElem.1 hk
      have hl := h9.length_eq
      have := (List.forall₂_iff_get.1 h9).2 i hi (by omega)
      simpa using entry_lt hn this
    obtain ⟨ts, h10, h11⟩ := (kids_iff (by omega)).1 h9
    unfold parseType
    rw [hcols]
    dsimp only
    rw [pyInt_iff.2 h3, pyInt_iff.2 h5, pyInt_iff.2 h6]
    dsimp only
    have hsp := split_of_tokens h7
    cases more with
    | nil =>
      have : ws = [] := by rw [← hsp]; rfl
      subst this
      cases h8
      cases h10
      exact ⟨_, rfl, rfl, h11, rfl, rfl, rfl, h4⟩
    | cons c4 more =>
      simp only [List.head?_cons, Option.getD_some] at hsp
      dsimp only
      split
      · rename_i hc
        have : c4 = [] := by simpa using hc
        subst this
        have : ws = [] := by rw [← hsp]; rfl
        subst this
        cases h8
        cases h10
        exact ⟨_, rfl, rfl, h11, rfl, rfl, rfl, h4⟩
      · rw [hsp, pyInts_iff.2 h8]
        dsimp only
        rw [if_pos hall, h10]
        exact ⟨_, rfl, rfl, h11, rfl, rfl, rfl, h4⟩
  · rintro ⟨r, hp, hi, hk, hname, hlev, hfreq, hidx⟩
    unfold parseType at hp
    split at hp
    · rename_i c0 c1 c2 c3 more hcols
      obtain ⟨hj, h9⟩ := (columns_iff (c := 9) (by simp)).1 hcols
      rcases pyInt_cases c0 with ⟨i0, g0, e0⟩ | e0
      swap
      · rw [e0] at hp; cases hp
      rcases pyInt_cases c2 with ⟨i2, g2, e2⟩ | e2
      swap
      · rw [e0, e2] at hp; cases hp
      rcases pyInt_cases c3 with ⟨i3, g3, e3⟩ | e3
      swap
      · rw [e0, e2, e3] at hp; cases hp
      rw [e0, e2, e3] at hp
      dsimp only at hp
      have finish : r.name = c1 → r.level = i2 → r.idx = i0 → r.freq = i3 → (∃ (ws : List Str) (ks : List Int), Tokens (more.head?.getD []) ws ∧
          List.Forall₂ IntText ws ks ∧ List.Forall₂ (KidAt n done) ks t.kids) → Row n done line t := by
        intro q1 q2 q3 q4 q5
        have ht : t.name = c1 := by rw [← hname, q1]
        refine ⟨c0, c2, c3, more, ?_, ?_, ?_, hidx, ?_, ?_, q5⟩
        · rw [ht]; exact trimmed_iff.2 hj
        · rw [ht]; exact h9
        · rw [hidx, ← hi, q3]; exact g0
        · rw [← hlev, q2]; exact g2
        · rw [← hfreq, q4]; exact g3
      have hnil : Tokens ([] : Str) [] := .blank (by intro c hc; simp at hc)
      split at hp
      · cases hp
        refine finish rfl rfl rfl rfl ⟨[], [], hnil, .nil, ?_⟩
        rw [← Option.some.inj hk]; exact .nil
      · rename_i c4 more'
        split at hp
        · rename_i hc
          have : c4 = [] := by simpa using hc
          subst this
          cases hp
          refine finish rfl rfl rfl rfl ⟨[], [], hnil, .nil, ?_⟩
          rw [← Option.some.inj hk]; exact .nil
        · rcases pyInts_cases (split c4) with ⟨ks, g4, e4⟩ | e4
          swap
          · rw [e4] at hp; cases hp
          rw [e4] at hp
          dsimp only at hp
          split at hp
          · cases hl : lookupKids (partTable n done) ks with
            | error e => rw [hl] at hp; cases hp
            | ok ts =>
              rw [hl] at hp
              cases hp
              exact finish rfl rfl rfl rfl ⟨split c4, ks, tokens_split c4, g4, (kids_iff (by omega)).2 ⟨ts, hl, hk⟩⟩
          · cases hp
    · cases hp

theorem readTypes_iff (n : Nat) : ∀ (lines : List Str) (done tbl : List Ty), done.length + lines.length = n →
    (readTypes n done lines = .ok tbl ↔ ∃ new, tbl = done ++ new ∧ new.length = lines.length ∧
      ∀ i line t, lines[i]? = some line → new[i]? = some t → Row n (done ++ new.take i) line t)
  | [], done, tbl, _ => by
    simp only [readTypes, Except.ok.injEq]
    constructor
    · rintro rfl; exact ⟨[], by simp, rfl, by simp⟩
    · rintro ⟨new, rfl, h, _⟩
      have : new = [] := List.length_eq_zero_iff.1 h
      subst this; simp
  | line :: lines, done, tbl, hn => by
    simp only [List.length_cons] at hn
    have hlt : done.length < n := by omega
    rw [readTypes]
    change (match parseType (partTable n done) line with
      | .error e => Except.error e
      | .ok r => if r.idx = (done.length : Int) then match allKids r.kids with
          | none => .error .noneKid
          | some kids => readTypes n (done ++ [(⟨r.name, r.level, done.length, r.freq, kids⟩ : Ty)]) lines
        else .error .assertion) = .ok tbl ↔ _
    constructor
    · intro h
      cases hp : parseType (partTable n done) line with
      | error e => rw [hp] at h; cases h
      | ok r =>
        rw [hp] at h
        dsimp only at h
        split at h
        · rename_i hi
          cases hk : allKids r.kids with
          | none => rw [hk] at h; cases h
          | some kids =>
            rw [hk] at h
            dsimp only at h
            obtain ⟨new, rfl, h2, h3⟩ := (readTypes_iff n lines _ tbl (by simp; omega)).1 h
            refine ⟨⟨r.name, r.level, done.length, r.freq, kids⟩ :: new, by simp, by simp [h2], ?_⟩
            intro i l t hl ht
            cases i with
            | zero =>
              simp only [List.getElem?_cons_zero, Option.some.injEq] at hl ht
              subst hl; subst ht
              simp only [List.take_zero, List.append_nil]
              exact (row_iff hlt).2 ⟨r, hp, hi, hk, rfl, rfl, rfl, rfl⟩
            | succ i =>
              simp only [List.getElem?_cons_succ] at hl ht
              have := h3 i l t hl ht
              simpa using this
        · cases h
    · rintro ⟨new, rfl, h2, h3⟩
      match new, h2 with
      | t :: new, h2 =>
        have h0 := h3 0 line t rfl rfl
        simp only [List.take_zero, List.append_nil] at h0
        obtain ⟨r, hp, hi, hk, e1, e2, e3, e4⟩ := (row_iff hlt).1 h0
        rw [hp]
        dsimp only
        rw [if_pos hi, hk]
        dsimp only
        have ht : (⟨r.name, r.level, done.length, r.freq, t.kids⟩ : Ty) = t := by
          rw [e1, e2, e3, ← e4]; cases t; rfl
        rw [ht]
        refine (readTypes_iff n lines _ _ (by simp; omega)).2 ⟨new, by simp, by simpa using h2, ?_⟩
        intro i l u hl hu
        have := h3 (i + 1) l u (by simpa using hl) (by simpa using hu)
        simpa using this

theorem rows_iff {ls : List Str} {tbl : List Ty} : readTypes ls.length [] ls = .ok tbl ↔ RowsOf ls tbl := by
  rw [readTypes_iff _ ls [] tbl (by simp)]
  simp only [List.nil_append, RowsOf]
  constructor
  · rintro ⟨new, rfl, h⟩; exact h
  · intro h; exact ⟨tbl, rfl, h⟩

end Verif
