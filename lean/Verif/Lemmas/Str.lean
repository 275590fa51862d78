import Verif.Py.Basic
import Verif.Spec.Text
/-! # Lemmas on strings: split, join, strip, numbers -/

namespace Verif
open Spec

/-- the characters at which `str.split()` splits are the white space of the specification -/
theorem isWhite_eq : isWhite = isSpace := by
  funext c
  rw [Bool.eq_iff_iff, isWhite, List.contains_iff_mem]
  simp only [whiteSpace, isSpace, List.mem_cons, List.not_mem_nil, or_false, Bool.or_eq_true, Bool.and_eq_true, decide_eq_true_eq, beq_iff_eq]
  omega

theorem white_iff {c : Nat} : isWhite c = true ↔ isSpace c = true := by rw [isWhite_eq]

theorem allSpace_iff {g : Str} : AllSpace g ↔ ∀ c ∈ g, isSpace c = true := by rw [AllSpace, isWhite_eq]
theorem isToken_iff {w : Str} : IsToken w ↔ w ≠ [] ∧ ∀ c ∈ w, isSpace c = false := by rw [IsToken, isWhite_eq]

theorem consHead_ne_nil (c : Nat) (l : List Str) : consHead c l ≠ [] := by
  cases l <;> simp [consHead]

theorem splitOn_ne_nil (p : Nat → Bool) (s : Str) : splitOn p s ≠ [] := by
  cases s with
  | nil => simp [splitOn]
  | cons c cs => simp only [splitOn]; split <;> simp [consHead_ne_nil]

/-- no separator in the string: one piece -/
theorem splitOn_clean {p : Nat → Bool} {w : Str} (h : ∀ c ∈ w, p c = false) : splitOn p w = [w] := by
  induction w with
  | nil => rfl
  | cons c cs ih =>
    have hc := h c (by simp)
    simp [splitOn, hc, ih (fun d hd => h d (by simp [hd])), consHead]

/-- first piece up to the first separator -/
theorem splitOn_append_sep {p : Nat → Bool} {w : Str} {c : Nat} {r : Str} (h : ∀ c ∈ w, p c = false) (hc : p c = true) :
    splitOn p (w ++ c :: r) = w :: splitOn p r := by
  induction w with
  | nil => simp [splitOn, hc]
  | cons d ds ih =>
    have hd := h d (by simp)
    simp [splitOn, hd, ih (fun e he => h e (by simp [he])), consHead]

/-- `sep.join(s.split(sep)) == s` and conversely for pieces free of the separator -/
theorem splitOn_join {p : Nat → Bool} {c : Nat} (hc : p c = true) {ws : List Str} (hne : ws ≠ [])
    (h : ∀ w ∈ ws, ∀ d ∈ w, p d = false) : splitOn p (join [c] ws) = ws := by
  induction ws with
  | nil => exact absurd rfl hne
  | cons w ws ih =>
    cases ws with
    | nil => simpa [join] using splitOn_clean (h w (by simp))
    | cons v vs =>
      have := splitOn_append_sep (r := join [c] (v :: vs)) (h w (by simp)) hc
      simp only [join, List.append_assoc, List.cons_append, List.nil_append]
      rw [this, ih (by simp) (fun u hu => h u (by simp [hu]))]

theorem split_allSpace {g : Str} (h : AllSpace g) : split g = [] := by
  induction g with
  | nil => rfl
  | cons c cs ih =>
    have hc := white_iff.1 (h c (by simp))
    have := ih (fun d hd => h d (by simp [hd]))
    simp [split, splitOn, hc] at this ⊢
    exact this

theorem split_cons_space {c : Nat} (hc : isSpace c = true) (s : Str) : split (c :: s) = split s := by
  simp [split, splitOn, hc]

theorem split_append_left {g : Str} (h : AllSpace g) (s : Str) : split (g ++ s) = split s := by
  induction g with
  | nil => rfl
  | cons c cs ih =>
    rw [List.cons_append, split_cons_space (white_iff.1 (h c (by simp)))]
    exact ih (fun d hd => h d (by simp [hd]))

theorem split_token_sep {w : Str} {c : Nat} {r : Str} (h : IsToken w) (hc : isSpace c = true) :
    split (w ++ c :: r) = w :: split r := by
  have : w.isEmpty = false := by simpa using h.1
  simp [split, splitOn_append_sep (isToken_iff.1 h).2 hc, this]

theorem split_token {w : Str} (h : IsToken w) : split w = [w] := by
  have : w.isEmpty = false := by simpa using h.1
  simp [split, splitOn_clean (isToken_iff.1 h).2, this]

theorem split_token_spaces {w g : Str} (h : IsToken w) (hg : AllSpace g) : split (w ++ g) = [w] := by
  cases g with
  | nil => simpa using split_token h
  | cons c cs =>
    rw [split_token_sep h (white_iff.1 (hg c (by simp))), split_allSpace (fun d hd => hg d (by simp [hd]))]

/-- `split` computes the specification's tokens (soundness). -/
theorem split_of_tokens {s : Str} {ws : List Str} (h : Tokens s ws) : split s = ws := by
  induction h with
  | blank hg => exact split_allSpace hg
  | last hg hw hh =>
    rw [List.append_assoc, split_append_left hg, split_token_spaces hw hh]
  | cons hg hw hc _ _ ih =>
    rw [List.append_assoc, split_append_left hg, split_token_sep hw (white_iff.1 hc), ih]

theorem splitOn_pieces {p : Nat → Bool} (s : Str) : ∀ w ∈ splitOn p s, ∀ c ∈ w, p c = false := by
  induction s with
  | nil => simp [splitOn]
  | cons c cs ih =>
    by_cases hc : p c = true
    · simp only [splitOn, hc, if_true]
      intro w hw
      rcases List.mem_cons.1 hw with rfl | hw
      · simp
      · exact ih w hw
    · simp only [splitOn, hc]
      intro w hw
      cases hs : splitOn p cs with
      | nil => exact absurd hs (splitOn_ne_nil p cs)
      | cons v vs =>
        rw [hs] at ih
        simp only [hs, consHead, Bool.false_eq_true, if_false] at hw
        rcases List.mem_cons.1 hw with rfl | hw
        · intro d hd
          rcases List.mem_cons.1 hd with rfl | hd
          · simpa using hc
          · exact ih v (by simp) d hd
        · exact ih w (by simp [hw])

/-- every token of `split` is non-empty and whitespace free -/
theorem split_isToken {s w : Str} (h : w ∈ split s) : IsToken w := by
  simp only [split, List.mem_filter] at h
  exact isToken_iff.2 ⟨by simpa using h.2, splitOn_pieces s w h.1⟩

/-- every character of a piece comes from the string -/
theorem mem_of_mem_splitOn {p : Nat → Bool} {s w : Str} {c : Nat} (hw : w ∈ splitOn p s) (hc : c ∈ w) : c ∈ s := by
  induction s generalizing w with
  | nil => simp [splitOn] at hw; subst hw; simp at hc
  | cons d ds ih =>
    simp only [splitOn] at hw
    split at hw
    · rcases List.mem_cons.1 hw with rfl | hw
      · simp at hc
      · exact List.mem_cons_of_mem _ (ih hw hc)
    · cases hs : splitOn p ds with
      | nil => exact absurd hs (splitOn_ne_nil p ds)
      | cons v vs =>
        simp only [hs, consHead] at hw
        rcases List.mem_cons.1 hw with rfl | hw
        · rcases List.mem_cons.1 hc with rfl | hc
          · simp
          · exact List.mem_cons_of_mem _ (ih (by simp [hs]) hc)
        · exact List.mem_cons_of_mem _ (ih (by simp [hs, hw]) hc)

theorem mem_of_mem_split {s w : Str} {c : Nat} (hw : w ∈ split s) (hc : c ∈ w) : c ∈ s :=
  mem_of_mem_splitOn (List.mem_filter.1 hw).1 hc

theorem split_join_space {ws : List Str} (h : ∀ w ∈ ws, IsToken w) : split (join [32] ws) = ws := by
  cases ws with
  | nil => rfl
  | cons w ws =>
    have hj : splitOn isSpace (join [32] (w :: ws)) = w :: ws :=
      splitOn_join (by decide) (by simp) (fun v hv => (isToken_iff.1 (h v hv)).2)
    rw [split, hj, List.filter_eq_self]
    intro v hv
    simpa using (h v hv).1

/-- `split` computes the specification's tokens (completeness): every line has its tokens. -/
theorem tokens_split (s : Str) : Tokens s (split s) := by
  -- strong induction on the length
  generalize hn : s.length = n
  induction n using Nat.strongRecOn generalizing s with
  | ind n ih =>
    -- leading whitespace
    let g := s.takeWhile isSpace
    let t := s.dropWhile isSpace
    have hs : s = g ++ t := (List.takeWhile_append_dropWhile).symm
    have hg : AllSpace g := allSpace_iff.2 fun c hc => by
      have := List.all_takeWhile (p := isSpace) (l := s)
      exact (List.all_eq_true.1 this) c hc
    by_cases ht : t = []
    · rw [hs, ht, List.append_nil, split_allSpace hg]
      exact .blank hg
    · let w := t.takeWhile (fun c => !isSpace c)
      let r := t.dropWhile (fun c => !isSpace c)
      have htw : t = w ++ r := (List.takeWhile_append_dropWhile).symm
      have hw2 : ∀ c ∈ w, isSpace c = false := fun c hc => by
        have := List.all_takeWhile (p := fun c => !isSpace c) (l := t)
        simpa using (List.all_eq_true.1 this) c hc
      have hw1 : w ≠ [] := by
        cases h : t with
        | nil => exact absurd h ht
        | cons c cs =>
          have hc : isSpace c = false := by
            have := List.head_dropWhile_not isSpace (l := s) (by simpa using ht)
            have h2 : s.dropWhile isSpace = c :: cs := h
            simpa [h2] using this
          simp [w, h, hc]
      have hw : IsToken w := isToken_iff.2 ⟨hw1, hw2⟩
      cases hr : r with
      | nil =>
        have : s = g ++ w ++ [] := by rw [hs, htw, hr]; simp
        rw [this]
        have h2 : split (g ++ w ++ []) = [w] := by
          rw [List.append_assoc, split_append_left hg, List.append_nil, split_token hw]
        rw [h2]
        exact .last hg hw (by intro c hc; simp at hc)
      | cons c r' =>
        have hc : isSpace c = true := by
          have := List.head_dropWhile_not (fun c => !isSpace c) (l := t) (by
            have : r ≠ [] := by simp [hr]
            exact this)
          have h2 : t.dropWhile (fun c => !isSpace c) = c :: r' := hr
          simpa [h2] using this
        have hse : s = g ++ w ++ c :: r' := by rw [hs, htw, hr, List.append_assoc]
        have hlen : r'.length < n := by
          rw [← hn, hse]; simp; omega
        have hrec := ih r'.length hlen r' rfl
        have hsp : split s = w :: split r' := by
          rw [hse, List.append_assoc, split_append_left hg, split_token_sep hw hc]
        rw [hsp]
        by_cases he : split r' = []
        · rw [he]
          have hblank : AllSpace r' := by
            rw [he] at hrec
            cases hrec with
            | blank h => exact h
          rw [hse]
          exact .last hg hw (by
            intro d hd
            rcases List.mem_cons.1 hd with rfl | hd
            · exact white_iff.2 hc
            · exact hblank d hd)
        · rw [hse]
          exact .cons hg hw (white_iff.2 hc) hrec he

/-! ## strip -/

theorem dropWhile_eq_self {p : Nat → Bool} {s : Str} (h : ∀ c, s.head? = some c → p c = false) : s.dropWhile p = s := by
  cases s with
  | nil => rfl
  | cons c cs => simp [h c rfl]

theorem rstripP_append_all {p : Nat → Bool} {s g : Str} (h : ∀ c ∈ g, p c = true) : rstripP p (s ++ g) = rstripP p s := by
  simp only [rstripP, List.reverse_append]
  congr 1
  have : ∀ c ∈ g.reverse, p c = true := by simpa using h
  generalize g.reverse = g' at this
  induction g' with
  | nil => rfl
  | cons c cs ih =>
    simp [this c (by simp)]
    exact ih (fun d hd => this d (by simp [hd]))

theorem rstripP_eq_self {p : Nat → Bool} {s : Str} (h : ∀ c, s.getLast? = some c → p c = false) : rstripP p s = s := by
  simp only [rstripP]
  rw [dropWhile_eq_self (by simpa using h), List.reverse_reverse]

theorem rstripP_suffix (p : Nat → Bool) (s : Str) : ∃ g, s = rstripP p s ++ g ∧ ∀ c ∈ g, p c = true := by
  refine ⟨(s.reverse.takeWhile p).reverse, ?_, ?_⟩
  · have : s.reverse = s.reverse.takeWhile p ++ s.reverse.dropWhile p := (List.takeWhile_append_dropWhile).symm
    have h2 := congrArg List.reverse this
    rw [List.reverse_append, List.reverse_reverse] at h2
    exact h2
  · intro c hc
    have hc' : c ∈ s.reverse.takeWhile p := by simpa using hc
    exact (List.all_eq_true.1 (List.all_takeWhile (p := p) (l := s.reverse))) c hc'

theorem strip_decomp (s : Str) : ∃ g h, s = g ++ strip s ++ h ∧ AllSpace g ∧ AllSpace h := by
  obtain ⟨h, h1, h2⟩ := rstripP_suffix isSpace (s.dropWhile isSpace)
  refine ⟨s.takeWhile isSpace, h, ?_, ?_, allSpace_iff.2 h2⟩
  · rw [List.append_assoc]
    show s = _ ++ (rstripP isSpace (s.dropWhile isSpace) ++ h)
    rw [← h1, List.takeWhile_append_dropWhile]
  · intro c hc
    exact white_iff.2 ((List.all_eq_true.1 (List.all_takeWhile (p := isSpace) (l := s))) c hc)

theorem split_append_right {g : Str} (h : AllSpace g) (s : Str) : split (s ++ g) = split s := by
  induction hs : s.length using Nat.strongRecOn generalizing s with
  | ind n ih =>
    -- use the tokens of s
    have ht := tokens_split s
    generalize hw : split s = ws at ht
    cases ht with
    | blank hb =>
      exact split_allSpace (fun c hc => (List.mem_append.1 hc).elim (hb c) (h c))
    | last hg1 hw1 hh1 =>
      rw [List.append_assoc, List.append_assoc, split_append_left hg1, split_token_spaces hw1]
      intro c hc
      exact (List.mem_append.1 hc).elim (hh1 c) (h c)
    | @cons g1 w1 r c ws' hg1 hw1 hc hr hne =>
      have hlt : r.length < n := by rw [← hs]; simp; omega
      have e1 : split (g1 ++ w1 ++ c :: r ++ g) = w1 :: split (r ++ g) := by
        rw [List.append_assoc, List.append_assoc, List.cons_append, split_append_left hg1, split_token_sep hw1 (white_iff.1 hc)]
      have e2 : split (g1 ++ w1 ++ c :: r) = w1 :: split r := by
        rw [List.append_assoc, split_append_left hg1, split_token_sep hw1 (white_iff.1 hc)]
      rw [e1, ih r.length hlt r rfl, ← e2, hw]

theorem split_strip (s : Str) : split (strip s) = split s := by
  obtain ⟨g, h, hs, hg, hh⟩ := strip_decomp s
  conv => rhs; rw [hs]
  rw [List.append_assoc, split_append_left hg, split_append_right hh]

/-- nothing to strip when both ends are not whitespace -/
theorem strip_eq_self {s : Str} (h1 : ∀ c, s.head? = some c → isSpace c = false)
    (h2 : ∀ c, s.getLast? = some c → isSpace c = false) : strip s = s := by
  rw [strip, dropWhile_eq_self h1, rstripP_eq_self h2]

theorem strip_of_decomp {g s h : Str} (hg : AllSpace g) (hh : AllSpace h)
    (h1 : ∀ c, s.head? = some c → isSpace c = false)
    (h2 : ∀ c, s.getLast? = some c → isSpace c = false) : strip (g ++ s ++ h) = s := by
  have key : ∀ g : Str, AllSpace g → ∀ t, (g ++ t).dropWhile isSpace = t.dropWhile isSpace := by
    intro g
    induction g with
    | nil => intro _ t; rfl
    | cons c cs ih =>
      intro hg t
      simp [white_iff.1 (hg c (by simp))]
      exact ih (fun d hd => hg d (by simp [hd])) t
  rw [strip, List.append_assoc, key g hg]
  cases s with
  | nil =>
    have := key h hh []
    simp only [List.append_nil] at this
    simp [this, rstripP]
  | cons c cs =>
    have hc := h1 c rfl
    rw [List.cons_append, List.dropWhile_cons]
    simp only [hc, Bool.false_eq_true, if_false]
    rw [← List.cons_append, rstripP_append_all (allSpace_iff.1 hh), rstripP_eq_self h2]

theorem strip_head {s : Str} (c : Nat) (h : (strip s).head? = some c) : isSpace c = false := by
  -- the head of strip is the head of dropWhile
  obtain ⟨g, hg, _⟩ := rstripP_suffix isSpace (s.dropWhile isSpace)
  have : (s.dropWhile isSpace).head? = some c := by
    rw [hg]
    change (rstripP isSpace (s.dropWhile isSpace)).head? = some c at h
    cases hh : rstripP isSpace (s.dropWhile isSpace) with
    | nil => simp [hh] at h
    | cons d ds => simp [hh] at h ⊢; exact h
  have hne : s.dropWhile isSpace ≠ [] := by intro e; simp [e] at this
  have h2 := List.head_dropWhile_not isSpace hne
  rw [List.head?_eq_some_head hne] at this
  simp at this
  rw [this] at h2
  simpa using h2

theorem rstripP_last {p : Nat → Bool} {s : Str} (c : Nat) (h : (rstripP p s).getLast? = some c) : p c = false := by
  simp only [rstripP, List.getLast?_reverse] at h
  have hne : s.reverse.dropWhile p ≠ [] := by intro e; simp [e] at h
  have h2 := List.head_dropWhile_not p hne
  rw [List.head?_eq_some_head hne] at h
  simp at h
  rw [h] at h2
  simpa using h2

theorem strip_last {s : Str} (c : Nat) (h : (strip s).getLast? = some c) : isSpace c = false :=
  rstripP_last c h

theorem strip_strip (s : Str) : strip (strip s) = strip s :=
  strip_eq_self (fun c hc => strip_head c hc) (fun c hc => strip_last c hc)

/-! ## numbers -/

theorem digitsVal_append (s t : Str) (acc : Nat) :
    digitsVal (s ++ t) acc = (digitsVal s acc).bind (digitsVal t) := by
  induction s generalizing acc with
  | nil => rfl
  | cons c cs ih =>
    simp only [List.cons_append, digitsVal]
    split
    · exact ih _
    · rfl

theorem digitsVal_decAux (k n : Nat) (h : n < k) : digitsVal (decAux k n) 0 = some n := by
  induction k generalizing n with
  | zero => omega
  | succ k ih =>
    simp only [decAux]
    split
    · rename_i hn
      have : 48 ≤ 48 + n ∧ 48 + n ≤ 57 := by omega
      simp [digitsVal, this]
    · rename_i hn
      rw [digitsVal_append, ih (n / 10) (by omega)]
      have : 48 ≤ 48 + n % 10 ∧ 48 + n % 10 ≤ 57 := by omega
      simp [digitsVal, this]
      omega

theorem digitsVal_natStr (n : Nat) : digitsVal (natStr n) 0 = some n := digitsVal_decAux _ _ (by omega)

theorem decAux_digits (k n : Nat) : ∀ c ∈ decAux k n, 48 ≤ c ∧ c ≤ 57 := by
  induction k generalizing n with
  | zero => simp [decAux]
  | succ k ih =>
    simp only [decAux]
    split
    · intro c hc; simp at hc; omega
    · intro c hc
      rcases List.mem_append.1 hc with hc | hc
      · exact ih _ c hc
      · simp at hc; omega

theorem natStr_digits (n : Nat) : ∀ c ∈ natStr n, 48 ≤ c ∧ c ≤ 57 := decAux_digits _ _

theorem natStr_ne_nil (n : Nat) : natStr n ≠ [] := by
  simp only [natStr, decAux]; split <;> simp

theorem isSpace_lo {c : Nat} (h1 : 33 ≤ c) (h2 : c ≤ 126) : isSpace c = false := by
  simp only [isSpace, Bool.or_eq_false_iff, Bool.and_eq_false_iff, beq_eq_false_iff_ne, decide_eq_false_iff_not]
  omega

theorem intStr_chars (i : Int) : ∀ c ∈ intStr i, 33 ≤ c ∧ c ≤ 126 := by
  intro c hc
  simp only [intStr] at hc
  split at hc
  · rcases List.mem_cons.1 hc with rfl | hc
    · omega
    · have := natStr_digits _ c hc; omega
  · have := natStr_digits _ c hc; omega

theorem intStr_ne_nil (i : Int) : intStr i ≠ [] := by
  simp only [intStr]; split
  · simp
  · exact natStr_ne_nil _

theorem intStr_isToken (i : Int) : IsToken (intStr i) :=
  isToken_iff.2 ⟨intStr_ne_nil i, fun c hc => isSpace_lo (intStr_chars i c hc).1 (intStr_chars i c hc).2⟩

theorem strip_token {w : Str} (h : IsToken w) : strip w = w :=
  strip_eq_self (fun c hc => (isToken_iff.1 h).2 c (List.mem_of_mem_head? hc)) (fun c hc => (isToken_iff.1 h).2 c (List.mem_of_getLast? hc))

theorem isIntSpace_le {c : Nat} (h : isSpace c = false) : isIntSpace c = false := by simp [isIntSpace, h]

theorem intStrip_token {w : Str} (h : IsToken w) : rstripP isIntSpace (w.dropWhile isIntSpace) = w := by
  have h2 := fun c hc => isIntSpace_le ((isToken_iff.1 h).2 c hc)
  have h1 : w.dropWhile isIntSpace = w := by
    cases w with
    | nil => rfl
    | cons c cs => rw [List.dropWhile_cons_of_neg (by simp [h2 c (by simp)])]
  rw [h1]
  exact rstripP_eq_self fun c hc => h2 c (List.mem_of_getLast? hc)

theorem digitVal_ascii {c : Nat} (h : 48 ≤ c ∧ c ≤ 57) : digitVal c = some (c - 48) := by
  rw [digitVal, digitZeros, List.find?_cons_of_pos (by simp; omega)]
  rfl

theorem uintVal_digits : ∀ (s : Str) (acc : Nat) (b : Bool) (n : Nat), digitsVal s acc = some n → (b = true ∨ s ≠ []) → uintVal s acc b = some n
  | [], acc, b, n, h, hb => by
    have : b = true := by simpa using hb
    subst this
    simpa [uintVal, digitsVal] using h
  | c :: cs, acc, b, n, h, _ => by
    rw [digitsVal] at h
    split at h
    · rename_i hc
      rw [uintVal, if_neg (by omega), digitVal_ascii hc]
      exact uintVal_digits cs _ true n h (Or.inl rfl)
    · cases h

theorem uintVal_natStr (n : Nat) : uintVal (natStr n) 0 false = some n :=
  uintVal_digits _ _ _ _ (digitsVal_natStr n) (Or.inr (natStr_ne_nil n))

/-- `int(str(i)) == i` -/
theorem pyInt_intStr (i : Int) : pyInt (intStr i) = .ok i := by
  unfold pyInt
  rw [intStrip_token (intStr_isToken i)]
  unfold intStr
  by_cases hi : i < 0
  · simp only [hi, if_true, uintVal_natStr]
    congr 1; omega
  · simp only [hi, if_false]
    have hd := natStr_digits i.natAbs
    have hv := uintVal_natStr i.natAbs
    generalize natStr i.natAbs = ds at hd hv
    split
    · have := hd 45 (by simp); omega
    · have := hd 43 (by simp); omega
    · simp only [hv]; congr 1; omega

theorem natStr_injective {a b : Nat} (h : natStr a = natStr b) : a = b := by
  have := digitsVal_natStr a
  rw [h, digitsVal_natStr] at this
  exact (Option.some.inj this).symm

end Verif
