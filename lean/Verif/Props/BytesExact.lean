import Verif.Props.Bytes
import Verif.Props.RestoreExact
/-!
# Property C99: exactly which files come back, byte for byte
-/

namespace Verif
open Spec

section
variable {J : Json} (hJ : JsonLaws J) {ord : Nat → List Nat → List Nat} {A : Acc} {args : MainArgs A.F}

theorem utf8_inj {a b : String} (h : utf8 a = utf8 b) : a = b := by
  have h1 := utf8Skip_encode (encode_lit a)
  have h2 := utf8Skip_encode (encode_lit b)
  rw [h, h2] at h1
  exact (lit_inj h1).symm

include hJ

/-- C99, exactly: what is restored from the bytes of a text is what is restored from the text. -/
theorem C99_restore_iff (ht : args.task = .learn) {t : String} {lines : List Str} :
    RestoresBytes J ord A args (utf8 t) lines ↔ ∃ m, mainTask J ord A args none (lit t) = (some m, [], none) ∧ Restores J ord A m (lit t) lines := by
  constructor
  swap
  · rintro ⟨m, h1, h2⟩
    exact C99_restore hJ ht h1 h2
  rintro ⟨mb, h1, h2⟩
  obtain ⟨m, e, g1, g2⟩ := C99_learn hJ (ord := ord) (A := A) (args := args) ht (t := t) (chunks := [utf8 t]) (by simp)
  have h3 := h1 [utf8 t] none (by simp)
  rw [g2] at h3
  cases m with
  | none => simp at h3
  | some m =>
  obtain ⟨k1, k2⟩ : utf8 m = mb ∧ e = none := by simpa using h3
  subst k1 k2
  refine ⟨lit m, by simpa using g1, fun enc dec he hd hi => ?_⟩
  obtain ⟨outb, o1, r, o2, o3⟩ := h2 enc dec he hd hi
  obtain ⟨os, e', c1, c2⟩ := C99_code (J := J) (ord := ord) (A := A) (args := enc) (by simp [he]) (some m) (t := t) (chunks := [utf8 t]) (by simp)
  have c3 := o1 [utf8 t] (by simp)
  simp only [Option.map_some] at c1 c2
  rw [c2] at c3
  obtain ⟨k3, k4⟩ : utf8 os = outb ∧ e' = none := by simpa using c3
  subst k3 k4
  obtain ⟨rs, e'', d1, d2⟩ := C99_code (J := J) (ord := ord) (A := A) (args := dec) (by simp [hd]) (some m) (t := os) (chunks := [utf8 os]) (by simp)
  have d3 := o3 [utf8 os] (by simp)
  simp only [Option.map_some] at d1 d2
  rw [d2] at d3
  obtain ⟨k5, k6⟩ : utf8 rs = utf8 r ∧ e'' = none := by simpa using d3
  have k5 := utf8_inj k5
  subst k5 k6
  exact ⟨_, c1, by rw [d1, o2]⟩

/-- C99 for words, exactly: the bytes come back if and only if every word that is not a reserved name occurs `-mf` times, and there is room for these words. -/
theorem C99_word_iff (ht : args.task = .learn) (hlev : args.level = some .word) (hraw : args.termFreqs = false)
    {t : String} {ls : List Str} (hl : Lines (lit t) ls) {wss : List (List Str)} (hw : List.Forall₂ Tokens ls wss) :
    RestoresBytes J ord A args (utf8 t) (spaced wss) ↔
      (∀ w ∈ wss.flatten, w ∉ special → max 1 (args.minFreq.getD 0) ≤ wss.flatten.count w) ∧
        Room args.vocabSize (wss.flatten.dedup.filter fun w => decide (w ∉ special)).length :=
  (C99_restore_iff hJ ht).trans (C88_word_iff hJ (fun c hc => (lit_scalar t c hc).2) hl hw A ht hlev hraw none)

/-- C99 for characters without coverage cut, exactly: U+2581 does not occur, every character occurs `-mf` times (20 if not given or below 1), and there is room for them. -/
theorem C99_char_iff (ht : args.task = .learn) (hlev : args.level = some .char) (hraw : args.termFreqs = false) (hcov : args.cov = none)
    {t : String} {ls : List Str} (hl : Lines (lit t) ls) {wss : List (List Str)} (hw : List.Forall₂ Tokens ls wss) :
    RestoresBytes J ord A args (utf8 t) (spaced wss) ↔
      SP ∉ wss.flatten.flatten ∧ (∀ c ∈ wss.flatten.flatten,
        (if args.minFreq.getD 0 < 1 then 20 else args.minFreq.getD 0) ≤ wss.flatten.flatten.count c) ∧
        Room args.vocabSize wss.flatten.flatten.dedup.length :=
  (C99_restore_iff hJ ht).trans (C88_char_iff hJ (fun c hc => (lit_scalar t c hc).2) hl hw A ht hlev hraw hcov none)

end

-- with a minimum of 2, the words of "a b a b" come back, not those of "a b a"
example : pipeBytes { task := .learn, level := some .word, cov := none, minFreq := some 2 } true [utf8 "a b\na b"] = (utf8 "a b\na b\n", none) ∧
    pipeBytes { task := .learn, level := some .word, cov := none, minFreq := some 2 } true [utf8 "a b\na"] = (utf8 "a <unk>\na\n", none) := by decide +kernel

end Verif
