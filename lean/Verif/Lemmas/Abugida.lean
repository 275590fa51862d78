import Verif.Model.Abugida
import Verif.Lemmas.Cli
import Verif.Spec.Abugida
/-! # Lemmas on abugida rewriting -/

namespace Verif
open Spec

/-- what the proofs need of the character classes -/
structure Abugida.Lawful (a : Abugida) : Prop where
  cons : ∀ c, a.isCons c = true → a.isVowel c = false ∧ a.isForm c = false ∧ c ≠ a.virama ∧ c ≠ fullMark ∧ abSpace c = false
  vowel : ∀ c, a.isVowel c = true → a.isForm c = false ∧ c ≠ a.virama ∧ c ≠ fullMark ∧ abSpace c = false
  form : ∀ c, a.isForm c = true → c ≠ a.virama ∧ c ≠ fullMark ∧ abSpace c = false ∧
    ∃ v, a.formToVowel c = some v ∧ a.isVowel v = true ∧ a.formOf v = [c]
  formOf : ∀ v, ∀ c ∈ a.formOf v, c ≠ fullMark
  vir : abSpace a.virama = false ∧ a.virama ≠ fullMark
  impl : a.isVowel a.implVowel = true ∧ a.formOf a.implVowel = []

theorem abSpace_iff (c : Nat) : abSpace c = true ↔ Blank c := by
  simp [abSpace, Blank, or_assoc]

/-! ## files -/

theorem rstrip_line {l i : Str} (h10 : 10 ∉ l) (h : i = l ∨ i = l ++ [10]) : rstripP (· == 10) i = l := by
  rcases h with rfl | rfl
  · exact rstripNL_id h10
  · rw [rstripP_append_all (by simp), rstripNL_id h10]

theorem lines_noBreak {text : Str} {ls : List Str} (h : Lines text ls) : ∀ l ∈ ls, NoBreak l := by
  induction h with
  | nil => simp
  | last _ h => simpa using h
  | lf h _ ih => intro l hl; rcases List.mem_cons.1 hl with rfl | hl; exacts [h, ih l hl]
  | crlf h _ ih => intro l hl; rcases List.mem_cons.1 hl with rfl | hl; exacts [h, ih l hl]
  | cr h _ _ ih => intro l hl; rcases List.mem_cons.1 hl with rfl | hl; exacts [h, ih l hl]

theorem rewriteFile_lines {f : Str → Str} {text : Str} {ls : List Str} (h : Lines text ls) :
    rewriteFile f text = (ls.map f).flatMap (· ++ [10]) := by
  have hnb := lines_noBreak h
  have h1 := inpLines_spec h
  rw [rewriteFile]
  generalize inpLines text = is at h1
  clear h
  induction h1 with
  | nil => rfl
  | cons h2 _ ih =>
    rw [List.flatMap_cons, ih (fun l hl => hnb l (by simp [hl])), rstrip_line (hnb _ (by simp)).1 h2]
    rfl

/-- rewriting a file forth and back -/
theorem rewriteFile_twice {f g : Str → Str} {text : Str} {ls : List Str} (h : Lines text ls) (hf : ∀ l ∈ ls, NoBreak (f l))
    (hg : ∀ l ∈ ls, g (f l) = l) : rewriteFile g (rewriteFile f text) = ls.flatMap (· ++ [10]) := by
  rw [rewriteFile_lines h, rewriteFile, inpLines_rows _ (by simpa using hf)]
  clear h
  induction ls with
  | nil => rfl
  | cons l ls ih =>
    simp only [List.map_cons, List.flatMap_cons]
    rw [rstrip_line (hf l (by simp)).1 (Or.inr rfl), hg l (by simp)]
    congr 1
    exact ih (fun l hl => hf l (by simp [hl])) (fun l hl => hg l (by simp [hl]))

/-! ## positions -/

theorem everywhere_cons {P : Option Nat → Nat → Option Nat → Prop} (prev : Option Nat) (c : Nat) (r : Str) :
    (∀ a d b, c :: r = a ++ d :: b → P (a.getLast?.or prev) d b.head?) ↔
      P prev c r.head? ∧ ∀ a d b, r = a ++ d :: b → P (a.getLast?.or (some c)) d b.head? := by
  constructor
  · intro h
    refine ⟨h [] c r rfl, fun a d b e => ?_⟩
    have := h (c :: a) d b (by rw [e]; rfl)
    cases a with
    | nil => simpa using this
    | cons x a =>
      obtain ⟨y, hy⟩ : ∃ y, (x :: a).getLast? = some y := ⟨_, List.getLast?_eq_some_getLast (by simp)⟩
      rw [List.getLast?_cons_cons, hy] at this
      rw [hy]
      exact this
  · rintro ⟨h1, h2⟩ a d b e
    cases a with
    | nil =>
      simp at e
      obtain ⟨rfl, rfl⟩ := e
      simpa using h1
    | cons x a =>
      simp at e
      obtain ⟨rfl, e⟩ := e
      have := h2 a d b e
      cases a with
      | nil => simpa using this
      | cons y a =>
        obtain ⟨z, hz⟩ : ∃ z, (y :: a).getLast? = some z := ⟨_, List.getLast?_eq_some_getLast (by simp)⟩
        rw [hz] at this
        rw [List.getLast?_cons_cons, hz]
        exact this

/-- local check at every position, by recursion -/
def okAt (P : Option Nat → Nat → Option Nat → Prop) : Option Nat → Str → Prop
  | _, [] => True
  | prev, c :: r => P prev c r.head? ∧ okAt P (some c) r

theorem okAt_iff (P : Option Nat → Nat → Option Nat → Prop) (prev : Option Nat) (l : Str) :
    okAt P prev l ↔ ∀ a c b, l = a ++ c :: b → P (a.getLast?.or prev) c b.head? := by
  induction l generalizing prev with
  | nil => simp [okAt]
  | cons c r ih => rw [okAt, ih, everywhere_cons]

theorem everywhere_iff (P : Option Nat → Nat → Option Nat → Prop) (l : Str) : Everywhere P l ↔ okAt P none l := by
  rw [okAt_iff, Everywhere]
  simp

/-! ## the rewriting of AbugidaLang -/

/-- first code point that is not a virama -/
def Abugida.skipV (a : Abugida) : Str → Option Nat
  | [] => none
  | c :: r => if c = a.virama then a.skipV r else some c

/-- a virama is restored before this -/
def Abugida.closes (a : Abugida) : Option Nat → Bool
  | none => true
  | some d => abSpace d || a.isCons d

/-- the composition of encoding and decoding, for lines without the marker -/
def Abugida.norm (a : Abugida) : Bool → Str → Str
  | _, [] => []
  | b, c :: r =>
    if c = a.virama then a.norm b r
    else if a.isVowel c then c :: a.norm false r
    else if a.isCons c then
      c :: ((if r.head? = some a.virama ∧ a.closes (a.skipV r) = true then [a.virama] else []) ++ a.norm false r)
    else if a.isForm c then (if b then (match a.formToVowel c with | some v => [v] | none => []) else [c]) ++ a.norm false r
    else c :: a.norm (abSpace c) r

variable {a : Abugida}

/-- head of an encoding -/
theorem enc_head (ha : a.Lawful) {l : Str} (hm : fullMark ∉ l) (p : Option Nat) :
    match a.skipV l with
    | none => a.enc p l = []
    | some d => ∃ h t, a.enc p l = h :: t ∧ h ≠ fullMark ∧ abSpace h = abSpace d ∧ a.isCons h = a.isCons d := by
  induction l generalizing p with
  | nil => rfl
  | cons c r ih =>
    have hm' : fullMark ∉ r := fun h => hm (by simp [h])
    have hcm : c ≠ fullMark := fun h => hm (by simp [h])
    by_cases hv : c = a.virama
    · have := ih hm' (some c)
      simp only [Abugida.skipV, if_pos hv, Abugida.enc, beq_iff_eq, List.nil_append]
      exact this
    · simp only [Abugida.skipV, if_neg hv, Abugida.enc, beq_iff_eq]
      by_cases h1 : a.isVowel c = true
      · simp only [h1, if_true]
        exact ⟨c, _, rfl, hcm, rfl, rfl⟩
      · simp only [h1, Bool.false_eq_true, if_false]
        by_cases h2 : a.isCons c = true
        · simp only [h2, if_true]
          exact ⟨c, _, rfl, hcm, rfl, h2⟩
        · simp only [h2, Bool.false_eq_true, if_false]
          by_cases h3 : a.isForm c = true
          · obtain ⟨e1, e2, e3, v, e4, e5, e6⟩ := ha.form c h3
            obtain ⟨f1, f2, f3, f4⟩ := ha.vowel v e5
            have f5 : a.isCons v = false := by
              cases hc : a.isCons v with
              | false => rfl
              | true => rw [(ha.cons v hc).1] at e5; cases e5
            simp only [h3, if_true, e4]
            exact ⟨v, _, rfl, f3, f4.trans e3.symm, f5⟩
          · simp only [h3, Bool.false_eq_true, if_false]
            exact ⟨c, _, rfl, hcm, rfl, by simpa using h2⟩

/-- decoding a vowel that is not followed by the marker -/
theorem dec_vowel (ha : a.Lawful) {v : Nat} (hv : a.isVowel v = true) (p : Option Nat) (r : Str) (hr : r.head? ≠ some fullMark) :
    a.dec p (v :: r) = (if abBegin p then [v] else a.formOf v) ++ a.dec (some v) r := by
  obtain ⟨h1, h2, h3, h4⟩ := ha.vowel v hv
  have h5 : a.isCons v = false := by
    cases hc : a.isCons v with
    | false => rfl
    | true => rw [(ha.cons v hc).1] at hv; cases hv
  cases r with
  | nil =>
    conv => lhs; rw [Abugida.dec]
    simp [h3, h5, hv]
  | cons d r =>
    have : d ≠ fullMark := by simpa using hr
    conv => lhs; rw [Abugida.dec]
    simp [h3, h5, hv, this]

theorem enc_head_ne (ha : a.Lawful) {l : Str} (hm : fullMark ∉ l) (p : Option Nat) : (a.enc p l).head? ≠ some fullMark := by
  have := enc_head ha hm p
  cases hs : a.skipV l with
  | none => rw [hs] at this; rw [this]; simp
  | some d =>
    rw [hs] at this
    obtain ⟨h, t, e, h1, _⟩ := this
    rw [e]
    simpa using h1

theorem dec_enc (ha : a.Lawful) : ∀ (l : Str), fullMark ∉ l → ∀ p q : Option Nat, (abBegin p = true → abBegin q = true) →
    a.dec q (a.enc p l) = a.norm (abBegin q) l := by
  intro l
  induction l with
  | nil => intro _ p q _; simp [Abugida.enc, Abugida.dec, Abugida.norm]
  | cons c r ih =>
    intro hm p q hpq
    have hm' : fullMark ∉ r := fun h => hm (by simp [h])
    have hcm : c ≠ fullMark := fun h => hm (by simp [h])
    have ih := ih hm'
    rw [Abugida.enc.eq_def, Abugida.norm.eq_def]
    simp only
    by_cases hv : c = a.virama
    · subst hv
      simp only [beq_self_eq_true, if_true, List.nil_append]
      exact ih _ _ (by simp [abBegin, ha.vir.1])
    · simp only [beq_iff_eq, hv, if_false]
      by_cases h1 : a.isVowel c = true
      · obtain ⟨g1, g2, g3, g4⟩ := ha.vowel c h1
        simp only [h1, if_true]
        have hnb : ∀ x : Option Nat, abBegin (some c) = true → abBegin x = true := by simp [abBegin, g4]
        cases hb : abBegin p with
        | true =>
          simp only [if_true, List.cons_append, List.nil_append]
          rw [dec_vowel ha h1 _ _ (enc_head_ne ha hm' _), hpq hb, if_pos rfl, ih _ _ (hnb _)]
          simp [abBegin, g4]
        | false =>
          simp only [Bool.false_eq_true, if_false, List.cons_append, List.nil_append]
          have h5 : a.isCons c = false := by
            cases hc : a.isCons c with
            | false => rfl
            | true => rw [(ha.cons c hc).1] at h1; cases h1
          conv => lhs; rw [Abugida.dec]
          have e : abEnding (fullMark :: a.enc (some c) r) = false := by simp [abEnding]; decide
          simp only [beq_iff_eq, hcm, if_false, h5, Bool.false_eq_true, h1, if_true, e, Bool.not_false, Bool.true_and]
          rw [ih _ _ (hnb _)]
          have : abBegin (some fullMark) = false := by decide
          rw [this]
      · simp only [h1, Bool.false_eq_true, if_false]
        by_cases h2 : a.isCons c = true
        · obtain ⟨g1, g2, g3, g4, g5⟩ := ha.cons c h2
          simp only [h2, if_true]
          have hnb : ∀ x : Option Nat, abBegin (some c) = true → abBegin x = true := by simp [abBegin, g5]
          by_cases himp : (abEnding r || !(nextIs (fun d => a.isForm d || d == a.virama) r)) = true
          · -- the implicit vowel is written and dropped again
            rw [if_pos himp]
            obtain ⟨v1, v2⟩ := ha.impl
            obtain ⟨w1, w2, w3, w4⟩ := ha.vowel _ v1
            have w5 : a.isCons a.implVowel = false := by
              cases hc : a.isCons a.implVowel with
              | false => rfl
              | true => rw [(ha.cons _ hc).1] at v1; cases v1
            simp only [List.cons_append, List.nil_append]
            conv => lhs; rw [Abugida.dec]
            simp only [beq_iff_eq, hcm, if_false, h2, if_true, abEnding, nextIs, w4, w5, Bool.or_false, Bool.false_eq_true, List.nil_append]
            rw [dec_vowel ha v1 _ _ (enc_head_ne ha hm' _), v2]
            have e1 : abBegin (some c) = false := g5
            rw [e1]
            simp only [Bool.false_eq_true, if_false, List.nil_append]
            rw [ih _ _ (hnb _)]
            have e2 : abBegin (some a.implVowel) = false := w4
            rw [e2, if_neg]
            · rfl
            · rintro ⟨hh, _⟩
              cases r with
              | nil => simp at hh
              | cons d r =>
                simp at hh
                subst hh
                simp [abEnding, nextIs, ha.vir.1] at himp
          · -- a vowel sign or a virama follows
            rw [if_neg himp]
            simp only [List.cons_append, List.nil_append]
            conv => lhs; rw [Abugida.dec.eq_def]
            simp only [beq_iff_eq, hcm, if_false, h2, if_true]
            rw [ih _ _ (hnb _)]
            have e1 : abBegin (some c) = false := g5
            rw [e1]
            congr 2
            have hhead := enc_head ha hm' (some c)
            cases r with
            | nil => simp [abEnding, nextIs] at himp
            | cons d r =>
              have hsp : abSpace d = false := by
                cases hx : abSpace d with
                | false => rfl
                | true => simp [abEnding, nextIs, hx] at himp
              by_cases hd : d = a.virama
              · subst hd
                simp only [List.head?_cons, true_and]
                generalize a.enc (some c) (a.virama :: r) = E at hhead
                cases hs : a.skipV (a.virama :: r) with
                | none => rw [hs] at hhead; simp only at hhead; subst hhead; simp [abEnding, nextIs, Abugida.closes]
                | some x =>
                  rw [hs] at hhead
                  obtain ⟨h, t, rfl, _, e3, e4⟩ := hhead
                  have e5 : (abEnding (h :: t) || nextIs a.isCons (h :: t)) = a.closes (some x) := by
                    simp only [abEnding, nextIs, e3, e4, Abugida.closes]
                  rw [e5]
              · have hf : a.isForm d = true := by
                  simp [abEnding, nextIs, hsp, hd] at himp
                  exact himp
                have hs : a.skipV (d :: r) = some d := by simp [Abugida.skipV, hd]
                rw [hs] at hhead
                obtain ⟨h, t, e5, _, e3, e4⟩ := hhead
                rw [e5]
                have hc : a.isCons d = false := by
                  cases hc : a.isCons d with
                  | false => rfl
                  | true => rw [(ha.cons _ hc).2.1] at hf; cases hf
                simp [abEnding, nextIs, e3, e4, hsp, hc, hd]
        · simp only [h2, Bool.false_eq_true, if_false]
          by_cases h3 : a.isForm c = true
          · obtain ⟨g1, g2, g3, v, g4, g5, g6⟩ := ha.form c h3
            simp only [h3, if_true, g4, List.cons_append, List.nil_append]
            rw [dec_vowel ha g5 _ _ (enc_head_ne ha hm' _), g6]
            rw [ih _ _ (by simp [abBegin, g3])]
            have e2 : abBegin (some v) = false := (ha.vowel v g5).2.2.2
            rw [e2]
          · simp only [h3, Bool.false_eq_true, if_false, List.cons_append, List.nil_append]
            conv => lhs; rw [Abugida.dec.eq_def]
            have h2' : a.isCons c = false := by simpa using h2
            have h1' : a.isVowel c = false := by simpa using h1
            simp only [beq_iff_eq, hcm, if_false, h2', h1', Bool.false_eq_true]
            rw [ih _ _ (fun h => h)]
            rfl

/-- decoding never writes the marker -/
theorem dec_no_mark (ha : a.Lawful) : ∀ (n : Nat) (l : Str), l.length ≤ n → ∀ p, fullMark ∉ a.dec p l := by
  intro n
  induction n with
  | zero =>
    intro l hl p
    have : l = [] := List.length_eq_zero_iff.1 (by omega)
    subst this
    simp [Abugida.dec]
  | succ n ih =>
    intro l hl p
    cases l with
    | nil => simp [Abugida.dec]
    | cons c r =>
      simp at hl
      rw [Abugida.dec.eq_def]
      simp only
      split
      · exact ih r hl _
      · rename_i hc
        have hc' : fullMark ≠ c := fun e => hc (by simp [e])
        split
        · have := ih r hl (some c)
          simp only [List.mem_cons, List.mem_append, not_or]
          refine ⟨hc', ?_, this⟩
          intro hmem
          have hmem : fullMark ∈ [a.virama] := by
            revert hmem
            generalize (abEnding r || nextIs a.isCons r) = bb
            cases bb <;> simp
          exact ha.vir.2 (List.mem_singleton.1 hmem).symm
        · split
          · cases r with
            | nil =>
              simp only [List.mem_append, not_or]
              refine ⟨?_, ih [] (by simp) _⟩
              split
              · simpa using hc'
              · exact fun h => ha.formOf c _ h rfl
            | cons d r =>
              simp only
              split
              · simp only [List.mem_cons, not_or]
                simp at hl
                exact ⟨hc', ih r (by omega) _⟩
              · simp only [List.mem_append, not_or]
                refine ⟨?_, ih (d :: r) hl _⟩
                split
                · simpa using hc'
                · exact fun h => ha.formOf c _ h rfl
          · simp only [List.mem_cons, not_or]
            exact ⟨hc', ih r hl _⟩

/-! ## fixed points -/

theorem norm_length (b : Bool) (l : Str) : (a.norm b l).length ≤ l.length := by
  suffices h : ∀ n (l : Str), l.length ≤ n → ∀ b, (a.norm b l).length ≤ l.length from h l.length l (Nat.le_refl _) b
  intro n
  induction n with
  | zero =>
    intro l hl b
    have : l = [] := List.length_eq_zero_iff.1 (by omega)
    subst this
    simp [Abugida.norm]
  | succ n ih =>
    intro l hl b
    cases l with
    | nil => simp [Abugida.norm]
    | cons c r =>
      simp at hl
      have i1 := fun b => ih r hl b
      rw [Abugida.norm]
      split
      · have := i1 b; simp; omega
      · split
        · have := i1 false; simp; omega
        · split
          · split
            · rename_i hh
              cases r with
              | nil => simp at hh
              | cons d r =>
                have hd : d = a.virama := by simpa using hh.1
                subst hd
                have : a.norm false (a.virama :: r) = a.norm false r := by conv => lhs; rw [Abugida.norm]; simp
                rw [this]
                simp at hl
                have := ih r (by omega) false
                simp; omega
            · have := i1 false; simp; omega
          · split
            · have := i1 false
              have hlen : (if b = true then (match a.formToVowel c with | some v => [v] | none => []) else [c]).length ≤ 1 := by
                split
                · split <;> simp
                · simp
              simp; omega
            · have := i1 (abSpace c); simp; omega

/-- the local conditions, in terms of the classes -/
def Abugida.Local (a : Abugida) (prev : Option Nat) (c : Nat) (next : Option Nat) : Prop :=
  (c = a.virama → (∃ p, prev = some p ∧ a.isCons p = true) ∧ a.closes next = true) ∧
  (a.isForm c = true → abBegin prev = false)

theorem norm_fix (ha : a.Lawful) : ∀ (n : Nat) (l : Str), l.length ≤ n → ∀ prev : Option Nat,
    ((∀ p, prev = some p → a.isCons p = false) ∨ l.head? ≠ some a.virama) →
    (a.norm (abBegin prev) l = l ↔ okAt a.Local prev l) := by
  intro n
  induction n with
  | zero =>
    intro l hl prev _
    have : l = [] := List.length_eq_zero_iff.1 (by omega)
    subst this
    simp [Abugida.norm, okAt]
  | succ n ih =>
    intro l hl prev hp
    cases l with
    | nil => simp [Abugida.norm, okAt]
    | cons c r =>
      simp at hl
      rw [okAt, Abugida.norm]
      by_cases hv : c = a.virama
      · subst hv
        rw [if_pos rfl]
        constructor
        · intro h
          have h1 := norm_length (a := a) (abBegin prev) r
          have h2 := congrArg List.length h
          simp only [List.length_cons] at h2
          omega
        · rintro ⟨⟨h, _⟩, _⟩
          obtain ⟨⟨p, e1, e2⟩, _⟩ := h rfl
          rcases hp with hp | hp
          · rw [hp p e1] at e2; cases e2
          · simp at hp
      · rw [if_neg hv]
        -- characters that are no consonants, and not restored specially
        have step : a.isCons c = false → ∀ b, abBegin (some c) = b → (a.norm b r = r ↔ okAt a.Local (some c) r) := by
          intro hc b hb
          rw [← hb]
          exact ih r hl (some c) (Or.inl (by simpa using hc))
        by_cases h1 : a.isVowel c = true
        · obtain ⟨g1, g2, g3, g4⟩ := ha.vowel c h1
          have h5 : a.isCons c = false := by
            cases hc : a.isCons c with
            | false => rfl
            | true => rw [(ha.cons c hc).1] at h1; cases h1
          rw [if_pos h1, List.cons.injEq, step h5 false g4]
          simp [Abugida.Local, hv, g1]
        · rw [if_neg h1]
          by_cases h2 : a.isCons c = true
          · obtain ⟨g1, g2, g3, g4, g5⟩ := ha.cons c h2
            rw [if_pos h2, List.cons.injEq]
            simp only [true_and]
            have hloc : a.Local prev c r.head? := by simp [Abugida.Local, hv, g2]
            simp only [hloc, true_and]
            by_cases hr : r.head? = some a.virama
            · cases r with
              | nil => simp at hr
              | cons d r =>
                have hd : d = a.virama := by simpa using hr
                subst hd
                have hn : a.norm false (a.virama :: r) = a.norm false r := by conv => lhs; rw [Abugida.norm]; simp
                have hsk : a.skipV (a.virama :: r) = a.skipV r := by simp [Abugida.skipV]
                have hvc : a.isCons a.virama = false := by
                  cases hc : a.isCons a.virama with
                  | false => rfl
                  | true => exact absurd rfl (ha.cons _ hc).2.2.1
                have hvf : a.isForm a.virama = false := by
                  cases hc : a.isForm a.virama with
                  | false => rfl
                  | true => exact absurd rfl (ha.form _ hc).1
                simp at hl
                have hi := ih r (by omega) (some a.virama) (Or.inl (by simpa using hvc))
                have e2 : abBegin (some a.virama) = false := ha.vir.1
                rw [e2] at hi
                rw [hn, hsk, okAt]
                have hskip : okAt a.Local (some a.virama) r → a.skipV r = r.head? := by
                  intro ho
                  cases r with
                  | nil => rfl
                  | cons x r =>
                    by_cases hx : x = a.virama
                    · obtain ⟨⟨p, e1, e3⟩, _⟩ := ho.1.1 hx
                      cases e1
                      rw [hvc] at e3; cases e3
                    · simp [Abugida.skipV, hx]
                have hlv : a.Local (some c) a.virama r.head? ↔ a.closes r.head? = true := by
                  simp [Abugida.Local, h2, hvf]
                rw [hlv]
                by_cases hcl : a.closes (a.skipV r) = true
                · rw [if_pos ⟨rfl, hcl⟩, List.singleton_append, List.cons.injEq, hi]
                  simp only [true_and]
                  constructor
                  · intro ho; exact ⟨hskip ho ▸ hcl, ho⟩
                  · exact fun h => h.2
                · rw [if_neg (by simp [hcl]), List.nil_append]
                  constructor
                  · intro h
                    have h1 := norm_length (a := a) false r
                    have h2 := congrArg List.length h
                    simp only [List.length_cons] at h2
                    omega
                  · rintro ⟨h3, h4⟩
                    rw [hskip h4] at hcl
                    exact absurd h3 hcl
            · rw [if_neg (by simp [hr]), List.nil_append]
              have hi := ih r hl (some c) (Or.inr hr)
              have e2 : abBegin (some c) = false := g5
              rw [e2] at hi
              exact hi
          · rw [if_neg h2]
            have h2' : a.isCons c = false := by simpa using h2
            by_cases h3 : a.isForm c = true
            · obtain ⟨g1, g2, g3, v, g4, g5, g6⟩ := ha.form c h3
              rw [if_pos h3]
              cases hb : abBegin prev with
              | true =>
                simp only [if_true, g4, List.singleton_append, List.cons.injEq]
                have hne : v ≠ c := by
                  rintro rfl
                  rw [(ha.vowel v g5).1] at h3; cases h3
                simp [hne, Abugida.Local, h3, hb]
              | false =>
                simp only [Bool.false_eq_true, if_false, List.singleton_append, List.cons.injEq, true_and]
                rw [step h2' false g3]
                simp [Abugida.Local, hv, hb]
            · rw [if_neg h3, List.cons.injEq, step h2' (abSpace c) rfl]
              simp [Abugida.Local, hv, h3]

/-- exactly which lines survive -/
theorem decode_encode_iff (ha : a.Lawful) (l : Str) :
    a.decode (a.encode l) = l ↔ fullMark ∉ l ∧ okAt a.Local none l := by
  constructor
  · intro h
    have hm : fullMark ∉ l := by
      rw [← h]
      exact dec_no_mark ha _ _ (Nat.le_refl _) _
    refine ⟨hm, ?_⟩
    rw [Abugida.decode, Abugida.encode, dec_enc ha l hm none none (fun h => h)] at h
    exact (norm_fix ha _ l (Nat.le_refl _) none (Or.inl (by simp))).1 h
  · rintro ⟨hm, ho⟩
    rw [Abugida.decode, Abugida.encode, dec_enc ha l hm none none (fun h => h)]
    exact (norm_fix ha _ l (Nat.le_refl _) none (Or.inl (by simp))).2 ho

/-! ## the rewriting of AbugidaLangLite -/

/-- the round trip of the lite variant -/
def Abugida.liteRT (a : Abugida) (l : Str) : Str := a.liteDec (a.liteEnc l)

theorem impl_facts (ha : a.Lawful) : a.isCons a.implVowel = false ∧ abSpace a.implVowel = false ∧ a.implVowel ≠ a.virama := by
  obtain ⟨v1, _⟩ := ha.impl
  obtain ⟨w1, w2, w3, w4⟩ := ha.vowel _ v1
  refine ⟨?_, w4, w2⟩
  cases hc : a.isCons a.implVowel with
  | false => rfl
  | true => rw [(ha.cons _ hc).1] at v1; cases v1

theorem liteEnc_virama (r : Str) : a.liteEnc (a.virama :: r) = a.liteEnc r := by simp [Abugida.liteEnc]

theorem liteEnc_skip (r : Str) : (a.skipV r = none → a.liteEnc r = []) ∧
    ∀ d, a.skipV r = some d → ∃ r', r'.length < r.length ∧ a.liteEnc r = a.liteEnc (d :: r') ∧ d ≠ a.virama := by
  induction r with
  | nil => simp [Abugida.skipV, Abugida.liteEnc]
  | cons c r ih =>
    by_cases hc : c = a.virama
    · subst hc
      simp only [Abugida.skipV, if_true, liteEnc_virama]
      refine ⟨ih.1, fun d hd => ?_⟩
      obtain ⟨r', h1, h2, h3⟩ := ih.2 d hd
      exact ⟨r', by simp; omega, h2, h3⟩
    · simp only [Abugida.skipV, if_neg hc]
      refine ⟨by simp, ?_⟩
      rintro d ⟨⟩
      exact ⟨r, by simp, rfl, hc⟩

theorem liteEnc_head (c : Nat) (hc : c ≠ a.virama) (r : Str) : ∃ t, a.liteEnc (c :: r) = c :: t := by
  simp [Abugida.liteEnc, hc]

theorem liteRT_other {c : Nat} (hc : c ≠ a.virama) (h : a.isCons c = false) (r : Str) : a.liteRT (c :: r) = c :: a.liteRT r := by
  have : a.liteEnc (c :: r) = c :: a.liteEnc r := by simp [Abugida.liteEnc, hc, h]
  rw [Abugida.liteRT, this, Abugida.liteRT]
  cases a.liteEnc r with
  | nil => simp [Abugida.liteDec, h]
  | cons d t => simp [Abugida.liteDec, h]

/-- a consonant: what is restored depends on what follows -/
theorem liteRT_cons (ha : a.Lawful) {c : Nat} (h : a.isCons c = true) (r : Str) :
    (r.head? ≠ some a.virama → r.head? ≠ some a.implVowel → a.liteRT (c :: r) = c :: a.liteRT r) ∧
    (∀ r', r = a.implVowel :: r' → a.liteRT (c :: r) = c :: a.liteRT r') ∧
    (∀ r', r = a.virama :: r' →
      (a.closes (a.skipV r') = true → a.liteRT (c :: r) = c :: a.virama :: a.liteRT r') ∧
      (a.closes (a.skipV r') = false → ∃ r'', r''.length ≤ r'.length ∧ a.liteRT (c :: r) = c :: a.liteRT r'')) := by
  obtain ⟨i1, i2, i3⟩ := impl_facts ha
  obtain ⟨g1, g2, g3, g4, g5⟩ := ha.cons c h
  have hvc : a.isCons a.virama = false := by
    cases hc : a.isCons a.virama with
    | false => rfl
    | true => exact absurd rfl (ha.cons _ hc).2.2.1
  have enc : a.liteEnc (c :: r) = c :: ((if (abEnding r || nextIs a.isCons r) = true then [a.implVowel] else []) ++ a.liteEnc r) := by
    simp [Abugida.liteEnc, g3, h]
  refine ⟨?_, ?_, ?_⟩
  · intro h1 h2
    rw [Abugida.liteRT, enc]
    by_cases hcond : (abEnding r || nextIs a.isCons r) = true
    · rw [if_pos hcond]
      simp [Abugida.liteDec, h, i1, i2, Abugida.liteRT]
    · rw [if_neg hcond, List.nil_append]
      cases r with
      | nil => simp [abEnding] at hcond
      | cons d r =>
        have hdv : d ≠ a.virama := by simpa using h1
        have hdi : d ≠ a.implVowel := by simpa using h2
        simp [abEnding, nextIs] at hcond
        obtain ⟨t, ht⟩ := liteEnc_head (a := a) d hdv r
        rw [Abugida.liteRT, ht]
        simp [Abugida.liteDec, h, hcond.1, hcond.2, hdi]
  · rintro r' rfl
    rw [Abugida.liteRT, enc]
    have e : a.liteEnc (a.implVowel :: r') = a.implVowel :: a.liteEnc r' := by simp [Abugida.liteEnc, i3, i1]
    simp [abEnding, nextIs, i1, i2, e, Abugida.liteDec, h, Abugida.liteRT]
  · rintro r' rfl
    rw [Abugida.liteRT, enc, liteEnc_virama]
    simp only [abEnding, nextIs, ha.vir.1, hvc, Bool.or_false, Bool.false_eq_true, if_false, List.nil_append]
    obtain ⟨k1, k2⟩ := liteEnc_skip (a := a) r'
    constructor
    · intro hcl
      cases hs : a.skipV r' with
      | none =>
        rw [k1 hs]
        simp [Abugida.liteDec, h, Abugida.liteRT, k1 hs]
      | some d =>
        obtain ⟨r'', e1, e2, e3⟩ := k2 d hs
        obtain ⟨t, ht⟩ := liteEnc_head (a := a) d e3 r''
        rw [Abugida.liteRT, e2, ht]
        rw [hs] at hcl
        simp only [Abugida.closes] at hcl
        simp [Abugida.liteDec, h, hcl]
    · intro hcl
      cases hs : a.skipV r' with
      | none => rw [hs] at hcl; simp [Abugida.closes] at hcl
      | some d =>
        obtain ⟨r'', e1, e2, e3⟩ := k2 d hs
        rw [hs] at hcl
        simp only [Abugida.closes, Bool.or_eq_false_iff] at hcl
        by_cases hd : d = a.implVowel
        · subst hd
          have e : a.liteEnc (a.implVowel :: r'') = a.implVowel :: a.liteEnc r'' := by simp [Abugida.liteEnc, i3, i1]
          refine ⟨r'', by omega, ?_⟩
          rw [e2, e]
          simp [Abugida.liteDec, h, i1, i2, Abugida.liteRT]
        · refine ⟨r', Nat.le_refl _, ?_⟩
          obtain ⟨t, ht⟩ := liteEnc_head (a := a) d e3 r''
          rw [Abugida.liteRT, e2, ht]
          simp [Abugida.liteDec, h, hcl.1, hcl.2, hd]

theorem liteRT_length (ha : a.Lawful) : ∀ (n : Nat) (l : Str), l.length ≤ n → (a.liteRT l).length ≤ l.length := by
  intro n
  induction n with
  | zero =>
    intro l hl
    have : l = [] := List.length_eq_zero_iff.1 (by omega)
    subst this
    simp [Abugida.liteRT, Abugida.liteEnc, Abugida.liteDec]
  | succ n ih =>
    intro l hl
    cases l with
    | nil => simp [Abugida.liteRT, Abugida.liteEnc, Abugida.liteDec]
    | cons c r =>
      simp at hl
      by_cases hv : c = a.virama
      · subst hv
        have : a.liteRT (a.virama :: r) = a.liteRT r := by rw [Abugida.liteRT, liteEnc_virama, Abugida.liteRT]
        have h1 := ih r hl
        rw [this]
        simp only [List.length_cons]
        omega
      · cases hc : a.isCons c with
        | false =>
          have h1 := ih r hl
          rw [liteRT_other hv hc]
          simp only [List.length_cons]
          omega
        | true =>
          obtain ⟨h1, h2, h3⟩ := liteRT_cons ha hc r
          by_cases e1 : r.head? = some a.virama
          · cases r with
            | nil => simp at e1
            | cons d r =>
              have : d = a.virama := by simpa using e1
              subst this
              obtain ⟨h4, h5⟩ := h3 r rfl
              simp at hl
              cases hcl : a.closes (a.skipV r) with
              | true =>
                rw [h4 hcl]
                have := ih r (by omega)
                simp only [List.length_cons]
                omega
              | false =>
                obtain ⟨r'', e2, e3⟩ := h5 hcl
                rw [e3]
                have := ih r'' (by omega)
                simp only [List.length_cons]
                omega
          · by_cases e2 : r.head? = some a.implVowel
            · cases r with
              | nil => simp at e2
              | cons d r =>
                have : d = a.implVowel := by simpa using e2
                subst this
                rw [h2 r rfl]
                simp at hl
                have := ih r (by omega)
                simp only [List.length_cons]
                omega
            · rw [h1 e1 e2]
              have := ih r hl
              simp only [List.length_cons]
              omega

/-- the local conditions of the lite variant -/
def Abugida.LocalLite (a : Abugida) (prev : Option Nat) (c : Nat) (next : Option Nat) : Prop :=
  (c = a.virama → (∃ p, prev = some p ∧ a.isCons p = true) ∧ a.closes next = true) ∧
  (c = a.implVowel → ∀ p, prev = some p → a.isCons p = false)

theorem liteRT_fix (ha : a.Lawful) : ∀ (n : Nat) (l : Str), l.length ≤ n → ∀ prev : Option Nat,
    ((∀ p, prev = some p → a.isCons p = false) ∨ (l.head? ≠ some a.virama ∧ l.head? ≠ some a.implVowel)) →
    (a.liteRT l = l ↔ okAt a.LocalLite prev l) := by
  obtain ⟨i1, i2, i3⟩ := impl_facts ha
  have hvc : a.isCons a.virama = false := by
    cases hc : a.isCons a.virama with
    | false => rfl
    | true => exact absurd rfl (ha.cons _ hc).2.2.1
  intro n
  induction n with
  | zero =>
    intro l hl prev _
    have : l = [] := List.length_eq_zero_iff.1 (by omega)
    subst this
    simp [Abugida.liteRT, Abugida.liteEnc, Abugida.liteDec, okAt]
  | succ n ih =>
    intro l hl prev hp
    cases l with
    | nil => simp [Abugida.liteRT, Abugida.liteEnc, Abugida.liteDec, okAt]
    | cons c r =>
      simp at hl
      rw [okAt]
      by_cases hv : c = a.virama
      · subst hv
        have : a.liteRT (a.virama :: r) = a.liteRT r := by rw [Abugida.liteRT, liteEnc_virama, Abugida.liteRT]
        rw [this]
        constructor
        · intro h
          have h1 := liteRT_length ha _ r (Nat.le_refl _)
          have h2 := congrArg List.length h
          simp only [List.length_cons] at h2
          omega
        · rintro ⟨⟨h, _⟩, _⟩
          obtain ⟨⟨p, e1, e2⟩, _⟩ := h rfl
          rcases hp with hp | hp
          · rw [hp p e1] at e2; cases e2
          · simp at hp
      · cases hc : a.isCons c with
        | false =>
          rw [liteRT_other hv hc, List.cons.injEq, ih r hl (some c) (Or.inl (by simpa using hc))]
          have : a.LocalLite prev c r.head? := by
            refine ⟨fun h => absurd h hv, fun h p hp' => ?_⟩
            rcases hp with hp | hp
            · exact hp p hp'
            · simp [h] at hp
          simp [this]
        | true =>
          have hci : c ≠ a.implVowel := by rintro rfl; rw [i1] at hc; cases hc
          have hloc : a.LocalLite prev c r.head? := ⟨fun h => absurd h hv, fun h => absurd h hci⟩
          simp only [hloc, true_and]
          obtain ⟨h1, h2, h3⟩ := liteRT_cons ha hc r
          by_cases e1 : r.head? = some a.virama
          · cases r with
            | nil => simp at e1
            | cons d r =>
              have : d = a.virama := by simpa using e1
              subst this
              obtain ⟨h4, h5⟩ := h3 r rfl
              simp at hl
              have hi := ih r (by omega) (some a.virama) (Or.inl (by simpa using hvc))
              rw [okAt]
              have hlv : a.LocalLite (some c) a.virama r.head? ↔ a.closes r.head? = true := by
                simp [Abugida.LocalLite, hc, i3.symm]
              rw [hlv]
              have hskip : okAt a.LocalLite (some a.virama) r → a.skipV r = r.head? := by
                intro ho
                cases r with
                | nil => rfl
                | cons x r =>
                  by_cases hx : x = a.virama
                  · obtain ⟨⟨p, e1, e3⟩, _⟩ := ho.1.1 hx
                    cases e1
                    rw [hvc] at e3; cases e3
                  · simp [Abugida.skipV, hx]
              cases hcl : a.closes (a.skipV r) with
              | true =>
                rw [h4 hcl, List.cons.injEq, List.cons.injEq, hi]
                simp only [true_and]
                exact ⟨fun ho => ⟨hskip ho ▸ hcl, ho⟩, fun h => h.2⟩
              | false =>
                obtain ⟨r'', e2, e3⟩ := h5 hcl
                rw [e3]
                constructor
                · intro h
                  have h6 := liteRT_length ha _ r'' (Nat.le_refl _)
                  have h7 := congrArg List.length h
                  simp only [List.length_cons] at h7
                  omega
                · rintro ⟨h6, h7⟩
                  rw [hskip h7, h6] at hcl
                  cases hcl
          · by_cases e2 : r.head? = some a.implVowel
            · cases r with
              | nil => simp at e2
              | cons d r =>
                have : d = a.implVowel := by simpa using e2
                subst this
                rw [h2 r rfl]
                constructor
                · intro h
                  have h6 := liteRT_length ha _ r (Nat.le_refl _)
                  have h7 := congrArg List.length h
                  simp only [List.length_cons] at h7
                  omega
                · rintro ⟨⟨_, h6⟩, _⟩
                  rw [h6 rfl c rfl] at hc
                  cases hc
            · rw [h1 e1 e2, List.cons.injEq, ih r hl (some c) (Or.inr ⟨e1, e2⟩)]
              simp

/-! ## the Hindi data -/

theorem hindi_cons_iff (c : Nat) : hindi.isCons c = true ↔ Consonant c := by
  simp only [hindi, Abugida.isCons, List.contains_iff_mem, List.mem_append, List.mem_map, List.mem_range, Consonant]
  constructor
  · rintro (⟨x, h, rfl⟩ | ⟨x, h, rfl⟩) <;> omega
  · rintro (⟨h1, h2⟩ | ⟨h1, h2⟩)
    · exact Or.inl ⟨c - 0x915, by omega, by omega⟩
    · exact Or.inr ⟨c - 0x958, by omega, by omega⟩

theorem hindi_form_iff (c : Nat) : hindi.isForm c = true ↔ VowelSign c := by
  simp [hindi, Abugida.isForm, VowelSign]
  omega

theorem hindi_vowel_iff (c : Nat) : hindi.isVowel c = true ↔ (0x905 ≤ c ∧ c ≤ 0x914) ∨ c = 0x960 ∨ c = 0x961 := by
  simp [hindi, Abugida.isVowel]
  omega

theorem hindi_forms (c : Nat) (h : VowelSign c) : ∃ v, hindi.formToVowel c = some v ∧ hindi.isVowel v = true ∧ hindi.formOf v = [c] := by
  have key : ∀ c < 0x964, hindi.isForm c = true → ∃ v, hindi.formToVowel c = some v ∧ hindi.isVowel v = true ∧ hindi.formOf v = [c] := by
    intro c _ hf
    rw [hindi_form_iff] at hf
    have : c ∈ (List.range 15).map (· + 0x93E) ++ [0x962, 0x963] := by
      simp only [VowelSign] at hf
      rw [List.mem_append, List.mem_map]
      rcases hf with hf | rfl | rfl
      · exact Or.inl ⟨c - 0x93E, List.mem_range.2 (by omega), by omega⟩
      · exact Or.inr (by simp)
      · exact Or.inr (by simp)
    have hall : ∀ c ∈ (List.range 15).map (· + 0x93E) ++ [0x962, 0x963], (match hindi.formToVowel c with
      | some v => hindi.isVowel v && hindi.formOf v == [c]
      | none => false) = true := by decide
    have := hall c this
    cases hv : hindi.formToVowel c with
    | none => rw [hv] at this; cases this
    | some v =>
      rw [hv] at this
      simp at this
      exact ⟨v, rfl, this.1, this.2⟩
  have : c < 0x964 := by simp only [VowelSign] at h; omega
  exact key c this ((hindi_form_iff c).2 h)

theorem bool_false_of {b : Bool} {P : Prop} (h : b = true ↔ P) (hn : ¬ P) : b = false := by
  cases b with
  | false => rfl
  | true => exact absurd (h.1 rfl) hn

theorem hindi_lawful : hindi.Lawful where
  cons c h := by
    rw [hindi_cons_iff] at h
    have hs := abSpace_iff c
    simp only [Consonant] at h
    refine ⟨bool_false_of (hindi_vowel_iff c) (by omega), bool_false_of (hindi_form_iff c) (by simp only [VowelSign]; omega), ?_, ?_,
      bool_false_of hs (by simp only [Blank]; omega)⟩
    · show c ≠ 0x94D; omega
    · show c ≠ 0xE000; omega
  vowel c h := by
    rw [hindi_vowel_iff] at h
    have hs := abSpace_iff c
    refine ⟨bool_false_of (hindi_form_iff c) (by simp only [VowelSign]; omega), ?_, ?_,
      bool_false_of hs (by simp only [Blank]; omega)⟩
    · show c ≠ 0x94D; omega
    · show c ≠ 0xE000; omega
  form c h := by
    rw [hindi_form_iff] at h
    have hs := abSpace_iff c
    refine ⟨?_, ?_, bool_false_of hs (by simp only [Blank, VowelSign] at *; omega), hindi_forms c h⟩
    · show c ≠ 0x94D; simp only [VowelSign] at h; omega
    · show c ≠ 0xE000; simp only [VowelSign] at h; omega
  formOf v c h := by
    have hall : ∀ p ∈ hindi.forms, p.2 ≠ some fullMark := by decide
    rw [Abugida.formOf] at h
    split at h
    · rename_i x f hf
      simp at h
      subst h
      intro e
      exact hall _ (List.mem_of_find?_eq_some hf) (by rw [e])
    · simp at h
  vir := by decide
  impl := by decide

/-- the conditions for Hindi, in terms of the specification -/
theorem hindi_local (prev : Option Nat) (c : Nat) (next : Option Nat) :
    hindi.Local prev c next ↔ ViramaOK prev c next ∧ SignOK prev c := by
  have h1 : hindi.closes next = true ↔ ∀ n, next = some n → Consonant n ∨ Blank n := by
    cases next with
    | none => simp [Abugida.closes]
    | some n => simp [Abugida.closes, hindi_cons_iff, abSpace_iff, or_comm]
  have h2 : abBegin prev = false ↔ ∃ p, prev = some p ∧ ¬ Blank p := by
    cases prev with
    | none => simp [abBegin]
    | some p => simp [abBegin, ← abSpace_iff]
  have h3 : (∃ p, prev = some p ∧ hindi.isCons p = true) ↔ ∃ p, prev = some p ∧ Consonant p := by
    simp [hindi_cons_iff]
  simp only [Abugida.Local, ViramaOK, SignOK, h1, h2, h3, hindi_form_iff]
  rfl

end Verif
