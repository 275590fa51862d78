import Verif.Lemmas.Skip
import Verif.Props.Bytes
/-!
# C99: model files of any bytes, and learning at byte level

`C99_code` and `C99_code_invalid` speak of model files that are UTF-8.  A model file is read with `errors='ignore'`: what is not UTF-8 in it is left
out.  The byte level learns without reading its input.
-/

namespace Verif
open Spec

section
variable {J : Json} {ord : Nat → List Nat → List Nat} {A : Acc} {args : MainArgs A.F}

theorem mainBytes_model (ht : args.task ≠ .learn) {mb mb' : List Nat} (h : utf8Skip mb = utf8Skip mb') (chunks : List (List Nat)) :
    (mainBytes J ord A args (some mb) chunks).1 = some mb ∧
      (mainBytes J ord A args (some mb) chunks).2 = (mainBytes J ord A args (some mb') chunks).2 := by
  cases hk : args.task with
  | learn => exact absurd hk ht
  | encode =>
    simp only [mainBytes, hk, h]
    cases loadScheme J (utf8Skip mb') <;> exact ⟨rfl, rfl⟩
  | decode =>
    simp only [mainBytes, hk, h]
    cases loadScheme J (utf8Skip mb') <;> exact ⟨rfl, rfl⟩

/-- C99, model files of any bytes: encoding and decoding are those with the model that is left when what is not UTF-8 is left out; the file stays
as it is -/
theorem C99_model (ht : args.task ≠ .learn) (mb : List Nat) : ∃ m : String, Skipped mb (lit m) ∧ ∀ chunks,
    (mainBytes J ord A args (some mb) chunks).1 = some mb ∧
    (mainBytes J ord A args (some mb) chunks).2 = (mainBytes J ord A args (some (utf8 m)) chunks).2 := by
  have hs : Skipped mb (utf8Skip mb) := skipped_iff.2 rfl
  obtain ⟨m, hm⟩ := hs.sc
  exact ⟨m, hm ▸ hs, mainBytes_model ht (by rw [utf8Skip_encode (encode_lit m), hm])⟩

/-- and so, for UTF-8 input, the output is UTF-8 whatever the model file contains -/
theorem C99_model_code (ht : args.task ≠ .learn) (mb : List Nat) {t : String} {chunks : List (List Nat)} (h : chunks.flatten = utf8 t) :
    ∃ (m out : String) (e : Option Exc), Skipped mb (lit m) ∧ mainTask J ord A args (some (lit m)) (lit t) = (some (lit m), lit out, e) ∧
      mainBytes J ord A args (some mb) chunks = (some mb, utf8 out, e) := by
  obtain ⟨m, h1, h2⟩ := C99_model (J := J) (ord := ord) ht mb
  obtain ⟨out, e, h3, h4⟩ := C99_code (J := J) (ord := ord) ht (some m) h
  refine ⟨m, out, e, h1, h3, ?_⟩
  obtain ⟨h5, h6⟩ := h2 chunks
  simp only [Option.map_some] at h4
  rw [h4] at h6
  exact Prod.ext h5 h6

/-- C99, learning at byte level: the model is the same for every input, be it UTF-8 or not -/
theorem C99_learn_byte (hJ : JsonLaws J) (ht : args.task = .learn) (hl : args.level = some .byte) : ∃ m : String,
    (∀ text, mainTask J ord A args none text = (some (lit m), [], none)) ∧
    ∀ model chunks, mainBytes J ord A args model chunks = (some (utf8 m), [], none) := by
  obtain ⟨s, m, h1, h2, h3, h4, h5⟩ := byte_persist hJ
  rw [saveTable, h1] at h4
  have hm : ∀ text, mainTask J ord A args none text = (some m, [], none) := by
    intro text
    cases hraw : args.termFreqs <;>
      simp only [mainTask, ht, hl, hraw, learnVocab, learnTf, learnRaw, Bool.false_eq_true, if_false, if_true, LevelName.kind, saveModel_ok h1 h4]
  obtain ⟨m', e, g1, g2⟩ := C99_learn hJ (ord := ord) ht (t := "") (chunks := []) rfl
  rw [hm] at g1
  have hb : ∀ model chunks, mainBytes J ord A args model chunks = (some (utf8Drop m), [], none) := by
    intro model chunks
    have hv : learnGen J ord A args .byte (byteLines chunks) = .ok byteVocab := by
      cases he : (byteLines chunks).exc <;> cases hraw : args.termFreqs <;>
        simp only [learnGen, he, hraw, learnVocab, learnTf, learnRaw, Bool.false_eq_true, if_false, if_true]
    simp only [mainBytes, ht, hl, hv, LevelName.kind, h1, saveModel_ok h1 h4, Option.map_some]
  cases m' with
  | none => simp at g1
  | some m' =>
    simp only [Option.map_some, Prod.mk.injEq, Option.some.injEq] at g1
    obtain ⟨rfl, _, rfl⟩ := g1
    exact ⟨m', hm, fun model chunks => by rw [hb, utf8Drop_encode (encode_lit m')]⟩

end

-- a model file with a byte between two lines that is not UTF-8, and one within a name
example : Skipped [97, 255, 195, 10] (lit "a\n") := skipped_iff.2 (by decide +kernel)
example : (mainBytes pyJson ordId accF64 { task := .encode, cov := none }
    ((mainBytes pyJson ordId accF64 { task := .learn, level := some .word, cov := none } none [[97, 10, 98]]).1.map fun m =>
      m.flatMap fun b => if b = 97 then [226, 130, 97, 255] else [b]) [[97, 32, 98, 10]]).2 = (utf8 "a b\n", none) := by decide +kernel
-- bytes that no text has, at byte level
example : (mainBytes pyJson ordId accF64 { task := .learn, level := some .byte, cov := none } none [[255, 10], [195]]).2 = ([], none) := by decide +kernel

end Verif
