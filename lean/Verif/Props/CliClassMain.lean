import Verif.Props.Main
import Verif.Props.Persist
import Verif.Props.CliClass
import Verif.Props.FreqCli
import Verif.Props.Shrink
/-!
# C88: exactly the texts that `learn`, `encode` and `decode` restore with class labels; C13: the kind of a saved scheme
-/

namespace Verif
open Spec

/-- C13, whatever the names in the table: if the file of a saved scheme can be loaded at all, the scheme loaded is of the same kind. -/
theorem C13_kind {J : Json} (hJ : JsonLaws J) {s s' : Scheme} {m : Str} (hs : s.save J = .ok m) (hl : loadScheme J m = .ok s') : s'.kind = s.kind := by
  unfold Scheme.save writeOut at hs
  split at hs
  · cases hs
  rename_i lv _
  split at hs
  · cases hs
  rename_i rows _
  cases hs
  have hlow : ∀ k : Kind, ∀ c ∈ k.name, 97 ≤ c ∧ c ≤ 122 := by intro k; cases k <;> decide
  have hp : Header.Plain { scheme := some s.kind.name, maxLevel := some lv } :=
    ⟨rfl, fun n hn => by cases hn; exact hlow s.kind⟩
  generalize hh : ({ scheme := some s.kind.name, maxLevel := some lv } : Header) = h at hp hl
  obtain ⟨body, hb⟩ := hJ.shape h hp
  have hasc := hJ.ascii h hp
  have hdrop : dropSurrogates (35 :: J.dumps h ++ 10 :: rows) = (35 :: J.dumps h) ++ 10 :: dropSurrogates rows := by
    have h1 : dropSurrogates (35 :: J.dumps h) = 35 :: J.dumps h := dropSurrogates_id fun c hc => by
      rcases List.mem_cons.1 hc with rfl | hc
      · decide
      · have := hasc c hc
        simp only [isSurrogate, decide_eq_false_iff_not]
        omega
    have h2 : dropSurrogates (10 :: rows) = 10 :: dropSurrogates rows := rfl
    rw [← h2]
    conv_rhs => rw [← h1]
    exact List.filter_append ..
  have h13 : 13 ∉ 35 :: J.dumps h ++ [10] := by
    intro hc
    simp only [List.mem_append, List.mem_cons, List.not_mem_nil, or_false] at hc
    rcases hc with (hc | hc) | hc
    · omega
    · have := hasc _ hc; omega
    · omega
  have h10 : 10 ∉ 35 :: J.dumps h := by
    intro hc
    rcases List.mem_cons.1 hc with hc | hc
    · omega
    · have := hasc _ hc; omega
  have hl0 : strip (35 :: J.dumps h) = 35 :: J.dumps h := by
    apply strip_eq_self
    · intro c hc; simp at hc; subst hc; decide
    · intro c hc
      rw [hb, ← List.cons_append, List.getLast?_concat] at hc
      cases hc; decide
  have hst : startsWith [35, 123] (35 :: J.dumps h) = true := by rw [hb]; rfl
  have huniv : univNewlines ((35 :: J.dumps h) ++ 10 :: dropSurrogates rows) = (35 :: J.dumps h) ++ 10 :: univNewlines (dropSurrogates rows) := by
    have := univNewlines_append h13 (dropSurrogates rows)
    simpa using this
  simp only [loadScheme] at hl
  split at hl
  · cases hl
  rename_i types hd hr
  rw [hdrop] at hr
  simp only [readVocab, huniv, fileLines_cons h10, List.map_cons, hl0, hst, if_true, List.drop_succ_cons, List.drop_zero, hJ.round h hp] at hr
  split at hr
  · cases hr
  cases hr
  have hreg : ∀ k : Kind, registry k.name = .ok k := by intro k; cases k <;> decide
  have hkind : headerKind (some h) = .ok s.kind := by
    subst hh
    simp only [headerKind, if_true, hreg]
  rw [hkind] at hl
  exact scheme_kind hl

theorem lines_chars {text : Str} {ls : List Str} (h : Lines text ls) : ∀ l ∈ ls, ∀ c ∈ l, c ∈ text := by
  induction h with
  | nil => simp
  | last => simp
  | lf _ _ ih | crlf _ _ ih | cr _ _ _ ih =>
    intro l hl c hc
    rcases List.mem_cons.1 hl with rfl | hl
    · simp [hc]
    · simp [ih l hl c hc]

/-- C88 for classes, exactly: a text comes back line by line, without the white space around the lines, if and only if it is not empty and, with `-idx`,
no line has an inner tab, or, with pieces, no line has inner white space. -/
theorem C88_class_iff {J : Json} (hJ : JsonLaws J) {ord : Nat → List Nat → List Nat} {A : Acc} {args enc dec : MainArgs A.F}
    (ht : args.task = .learn) (hraw : args.termFreqs = false) (hlev : args.level = some .clasz) (he : enc.task = .encode) (hd : dec.task = .decode)
    (hi : enc.indices = dec.indices) (model : Option Str) {text : Str} (hs : ∀ c ∈ text, ¬ (0xD800 ≤ c ∧ c ≤ 0xDFFF)) {ls : List Str}
    (hl : Lines text ls) :
    (∃ m out, mainTask J ord A args model text = (some m, [], none) ∧ mainTask J ord A enc (some m) text = (some m, out, none) ∧
      mainTask J ord A dec (some m) out = (some m, ls.flatMap fun l => strip l ++ [10], none)) ↔
    text ≠ [] ∧ ∀ l ∈ ls, if enc.indices then 9 ∉ strip l else strip l = [] ∨ IsToken (strip l) := by
  have hchars : ∀ l ∈ ls, ∀ c ∈ l, c ≠ 10 ∧ c ≠ 13 ∧ c ∈ text := by
    intro l hl' c hc
    have hb := lines_noBreak hl l hl'
    exact ⟨fun e => hb.1 (e ▸ hc), fun e => hb.2 (e ▸ hc), lines_chars hl l hl' c hc⟩
  have hplain : (∀ l ∈ ls, 9 ∉ strip l) → ∀ l ∈ ls, ∀ c ∈ strip l, Plain c := fun h l hl' c hc => by
    obtain ⟨h1, h2, h3⟩ := hchars l hl' c (strip_sub hc)
    exact ⟨fun e => h l hl' (e ▸ hc), h1, h2, hs c h3⟩
  constructor
  · rintro ⟨m, out, h1, h2, h3⟩
    simp only [mainTask, ht, hlev, hraw, learnVocab, Bool.false_eq_true, if_false, LevelName.kind] at h1
    obtain ⟨v, s, g1, g2, g3, -⟩ := C77_class_iff hJ A (inpLines text) args.vocabSize (effMinFreq .clasz (args.minFreq.getD 0)) args.cov
    simp only [g1] at h1
    have hsave : s.save J = .ok m := by
      unfold saveModel at h1
      rw [g2] at h1
      simp only at h1
      cases hsv : s.save J with
      | ok t => rw [hsv] at h1; simp at h1; rw [h1]
      | error e => rw [hsv] at h1; simp only at h1; split at h1 <;> simp at h1
    simp only [mainTask, he] at h2
    simp only [mainTask, hd] at h3
    cases hload : loadScheme J m with
    | error e => rw [hload] at h2; simp at h2
    | ok s' =>
      rw [hload] at h2 h3
      simp only [Prod.mk.injEq, true_and] at h2 h3
      have hk : s'.kind = .clasz := (C13_kind hJ hsave hload).trans (mkInvertible_ok (k := .clasz) g2).2.1
      obtain ⟨tbl, hmk, htab⟩ : ∃ tbl, Scheme.make .clasz tbl = .ok s' ∧ s'.table = tbl := by
        simp only [loadScheme] at hload
        split at hload
        · cases hload
        split at hload
        · cases hload
        rename_i types _ _ _ k _
        have hk' := scheme_kind hload
        rw [hk] at hk'
        subst hk'
        exact ⟨types, hload, (mkInvertible_ok (k := .clasz) hload).1⟩
      refine ⟨?_, ?_⟩
      · rintro rfl
        have : v = [] := by
          have : learnRaw A .clasz (inpLines []) args.vocabSize (effMinFreq .clasz (args.minFreq.getD 0)) args.cov = .ok [] := rfl
          rw [this] at g1
          exact (Except.ok.inj g1).symm
        rw [Scheme.save, g3, this] at hsave
        cases hsave
      · cases hb : enc.indices with
        | true =>
          rw [hb] at h2 hi
          rw [← hi] at h3
          have hin := (C62_class_idx_iff hmk hl).1 ⟨out, by ext1 <;> simp_all, by ext1 <;> simp_all⟩
          intro l hl' h9
          obtain ⟨t, ht', e⟩ := List.mem_map.1 (hin l hl')
          rcases load_names hload with hbv | hn
          · exact (byteVocab_plain t (hbv ▸ htab ▸ ht') 9 (e ▸ h9)).1 rfl
          · exact (hn t (htab ▸ ht') 9 (e ▸ h9)).1 rfl
        | false =>
          rw [hb] at h2 hi
          rw [← hi] at h3
          simpa using (C62_class_str_iff hmk hl).1 ⟨out, by ext1 <;> simp_all, by ext1 <;> simp_all⟩
  · rintro ⟨hne, h⟩
    cases hb : enc.indices with
    | true =>
      simp only [hb, if_true] at h
      obtain ⟨m, h1, h2⟩ := C88_class_partial (ord := ord) (args := args) hJ ht hraw model hlev hl hne (hplain h)
      obtain ⟨out, h3, h4⟩ := h2 enc dec he hd hb (hi ▸ hb)
      exact ⟨m, out, h1, h3, h4⟩
    | false =>
      simp only [hb, Bool.false_eq_true, if_false] at h
      have h9 : ∀ l ∈ ls, 9 ∉ strip l := fun l hl' h9 => by
        rcases h l hl' with e | e
        · rw [e] at h9; cases h9
        · have := (isToken_iff.1 e).2 9 h9
          revert this; decide
      have h1 := inpLines_spec hl
      have hne' : inpLines text ≠ [] := by
        intro e
        rw [e] at h1
        cases h1
        cases hl
        exact hne rfl
      obtain ⟨v, s, m, g1, g2, g3, g4, g5⟩ := C77_learned_class_partial hJ A (data := inpLines text) (fun i hi => by
        obtain ⟨l, hl', e⟩ := mem_of_forall₂_right h1 i hi
        rw [strip_nl_of e]; exact hplain h9 l hl') hne' args.vocabSize (effMinFreq .clasz (args.minFreq.getD 0)) args.cov
      obtain ⟨out, k1, k2⟩ := C62_class_str_partial g2 hl h
      refine ⟨m, out, ?_, ?_, ?_⟩
      · simp only [mainTask, ht, hlev, hraw, learnVocab, g1, LevelName.kind, saveModel_ok g2 g4, Bool.false_eq_true, if_false]
      · simp only [mainTask, he, g5, hb, k1]
      · simp only [mainTask, hd, g5, ← hi, hb, k2]

/-- labels with blanks: restored by their numbers, not by their pieces; a label with a tab: the model cannot be read again -/
example : (match mainTask pyJson ordId accExact { task := .learn, level := some .clasz, cov := none } none (lit "New York\n Rome \n") with
    | (some m, [], none) =>
      let run (b : Bool) := mainTask pyJson ordId accExact { task := .decode, indices := b, cov := none } (some m)
        (mainTask pyJson ordId accExact { task := .encode, indices := b, cov := none } (some m) (lit "New York\n Rome \n")).2.1
      decide (run true = (some m, lit "New York\nRome\n", none) ∧ run false = (some m, lit "New,York\nRome\n", none))
    | _ => false) = true ∧
    (match mainTask pyJson ordId accExact { task := .learn, level := some .clasz, cov := none } none (lit "a\tb\n") with
    | (some m, [], none) =>
      decide (mainTask pyJson ordId accExact { task := .encode, indices := true, cov := none } (some m) (lit "a\tb\n") = (some m, [], some .value))
    | _ => false) = true := by decide +kernel

end Verif
