import Verif.Model.BpeppRun
import Verif.Props.BpeppCli
/-!
# Property C117: what `bpepp` leaves in the files
-/

namespace Verif
open Spec

/-! ## writing never fails -/

theorem ppWriteVocab_ok (info : Str) {v : List Ty} (h : Indexed v) : ∃ t, ppWriteVocab info v = .ok t := by
  have hw := writeRows_ok v 0 (fun j t hj => by rw [h j t hj]; omega)
  exact ⟨_, by simp only [ppWriteVocab, hw]; rfl⟩

theorem ppVocab1_indexed {ord : Nat → List Nat → List Nat} {texts : List Str} {charMin wordMin size1 minEv1 : Int} {prepared : Bool} {v : List Ty}
    (h : ppVocab1 ord texts charMin wordMin size1 minEv1 prepared = .ok v) : Indexed v := by
  unfold ppVocab1 at h
  split at h
  · cases h
  · split at h
    · cases h
    · have ht : List.Forall₂ Tokens (ppReadLines texts) ((ppReadLines texts).map split) := by
        generalize ppReadLines texts = ls
        induction ls with
        | nil => exact .nil
        | cons l ls ih => exact .cons (tokens_split l) ih
      exact (ppSubwords_table ht h).1

theorem ppVocab2_indexed {ord : Nat → List Nat → List Nat} {l1 : Str} {texts : List Str} {size2 minEv2 : Int} {prepared : Bool} {v : List Ty}
    (h : ppVocab2 ord l1 texts size2 minEv2 prepared = .ok v) : Indexed v := by
  unfold ppVocab2 at h
  split at h
  · cases h
  · split at h
    · cases h
    · split at h
      · cases h
      · exact (C83_table h).1

theorem ppSave_ok {info : Str} {v : List Ty} (h : Indexed v) (p : PPath) (fs : Tree) :
    ∃ t, ppWriteVocab info v = .ok t ∧ ppSave info v p fs = (fs.put (resolve p) t, none) := by
  obtain ⟨t, ht⟩ := ppWriteVocab_ok info h
  exact ⟨t, ht, by simp only [ppSave, ht]⟩

/-- level 1 fails without a trace, or writes one file -/
theorem ppStage1_cases (a : PpArgs) (fs : Tree) : (∃ e, ppStage1 a fs = (fs, some e)) ∨
    ∃ texts t, treeTexts fs a.inp = .ok texts ∧ ppLearn1 a.info1 a.ord1 texts a.charMin a.wordMin a.size1 a.minEv1 a.prepared = .ok t ∧
      ppStage1 a fs = (fs.put (resolve a.l1) t, none) := by
  unfold ppStage1
  split
  · exact .inl ⟨_, rfl⟩
  · split
    · exact .inl ⟨_, rfl⟩
    · split
      · exact .inl ⟨_, rfl⟩
      · rename_i texts ht
        split
        · exact .inl ⟨_, rfl⟩
        · rename_i v hv
          obtain ⟨t, h1, h2⟩ := ppSave_ok (info := a.info1) (ppVocab1_indexed hv) a.l1 fs
          exact .inr ⟨texts, t, ht, by simp only [ppLearn1, hv, h1], h2⟩

/-- level 2 fails without a trace, or writes one file, after renaming the old one if it is the same path -/
theorem ppStage2_cases (a : PpArgs) (fs : Tree) : (∃ e, ppStage2 a fs = (fs, some e)) ∨
    ∃ texts t t2, treeTexts fs a.inp = .ok texts ∧ fs (resolve a.l1) = some t ∧
      ppLearn2 a.info2 a.ord2 (some t) texts a.size2 a.minEv2 a.prepared = .ok t2 ∧
      ((a.l1 ≠ a.vocab ∧ ppStage2 a fs = (fs.put (resolve a.vocab) t2, none)) ∨
       (a.l1 = a.vocab ∧ ∃ q, l1Path a.vocab = .ok q ∧ ppStage2 a fs = ((fs.move (resolve a.vocab) (resolve q)).put (resolve a.vocab) t2, none))) := by
  unfold ppStage2
  split
  · exact .inl ⟨_, rfl⟩
  · rename_i t hf
    split
    · exact .inl ⟨_, rfl⟩
    · rename_i texts ht
      split
      · exact .inl ⟨_, rfl⟩
      · rename_i v hv
        by_cases he : a.l1 = a.vocab
        · rw [if_pos he]
          split
          · exact .inl ⟨_, rfl⟩
          · rename_i q hq
            obtain ⟨t2, h1, h2⟩ := ppSave_ok (info := a.info2) (ppVocab2_indexed hv) a.vocab (fs.move (resolve a.vocab) (resolve q))
            exact .inr ⟨texts, t, t2, ht, hf, by simp only [ppLearn2, hv, h1], .inr ⟨he, q, hq, h2⟩⟩
        · rw [if_neg he]
          obtain ⟨t2, h1, h2⟩ := ppSave_ok (info := a.info2) (ppVocab2_indexed hv) a.vocab fs
          exact .inr ⟨texts, t, t2, ht, hf, by simp only [ppLearn2, hv, h1], .inl ⟨he, h2⟩⟩

/-! ## paths -/

theorem resolve_last (d : PPath) {n : Str} (h : n ≠ lit "..") : resolve (d ++ [n]) = resolve d ++ [n] := by
  simp only [resolve, List.foldl_append, List.foldl_cons, List.foldl_nil]
  rw [if_neg h]

theorem takeWhile_reverse_ext {stem ext : Str} (h : 46 ∉ ext) : ((stem ++ 46 :: ext).reverse.takeWhile fun c => c ≠ 46).reverse = ext := by
  rw [List.reverse_append, List.reverse_cons, List.append_assoc, List.takeWhile_append_of_pos]
  · simp
  · intro c hc
    have : c ∈ ext := by simpa using hc
    simp only [ne_eq, decide_not, Bool.not_eq_eq_eq_not, Bool.not_true, decide_eq_false_iff_not]
    rintro rfl; exact h this

/-- C117: the name under which the level 1 vocabulary is kept: `.l1` comes before the extension; a name without extension (no dot, or only one at the beginning or at
the end) gets `.l1` at the end. -/
theorem C117_l1_name (d : PPath) :
    (∀ stem ext, stem ≠ [] → ext ≠ [] → 46 ∉ ext → l1Path (d ++ [stem ++ 46 :: ext]) = .ok (d ++ [stem ++ lit ".l1" ++ 46 :: ext])) ∧
    (∀ n, 46 ∉ n → l1Path (d ++ [n]) = .ok (d ++ [n ++ lit ".l1"]) ∧ l1Path (d ++ [46 :: n]) = .ok (d ++ [46 :: n ++ lit ".l1"])) ∧
    (∀ n, l1Path (d ++ [n ++ [46]]) = .ok (d ++ [n ++ [46] ++ lit ".l1"])) ∧ l1Path [] = .error .value := by
  refine ⟨?_, ?_, ?_, rfl⟩
  · intro stem ext h1 h2 h3
    have hs := List.length_pos_iff.2 h1
    have he := List.length_pos_iff.2 h2
    simp only [l1Path, List.getLast?_concat, List.dropLast_concat, suffixOf, takeWhile_reverse_ext h3]
    rw [if_pos ⟨by simp; omega, h2⟩]
    congr 3
    simp only [List.length_append, List.length_cons, List.append_assoc]
    rw [List.take_left' (by omega)]
  · intro n hn
    constructor
    · have : (n.reverse.takeWhile fun c => decide (c ≠ 46)) = n.reverse := by
        have h := List.takeWhile_append_of_pos (l₁ := n.reverse) (l₂ := []) (p := fun c => decide (c ≠ 46)) ?_
        · simpa using h
        intro c hc
        have : c ∈ n := by simpa using hc
        simp only [ne_eq, decide_not, Bool.not_eq_eq_eq_not, Bool.not_true, decide_eq_false_iff_not]
        rintro rfl; exact hn this
      simp only [l1Path, List.getLast?_concat, List.dropLast_concat, suffixOf, this, List.reverse_reverse]
      rw [if_neg (by simp)]
      simp
    · have := takeWhile_reverse_ext (stem := []) hn
      simp only [List.nil_append] at this
      simp only [l1Path, List.getLast?_concat, List.dropLast_concat, suffixOf, this]
      rw [if_neg (by simp)]
      simp
  · intro n
    have := takeWhile_reverse_ext (stem := n) (ext := []) (by simp)
    simp only [l1Path, List.getLast?_concat, List.dropLast_concat, suffixOf, this]
    rw [if_neg (by simp)]
    simp only [List.length_nil, Nat.sub_zero, List.take_length, List.append_nil]

/-- the new name leads to another file -/
theorem l1Path_resolve {d : PPath} {n : Str} (hn : n ≠ lit "..") {q : PPath} (h : l1Path (d ++ [n]) = .ok q) : resolve q ≠ resolve (d ++ [n]) := by
  simp only [l1Path, List.getLast?_concat, List.dropLast_concat] at h
  injection h with h
  subst h
  have hs : (suffixOf n).length ≤ n.length := by
    unfold suffixOf
    dsimp only
    split
    · rename_i h; simp only [List.length_cons]; omega
    · simp
  have hne : n.take (n.length - (suffixOf n).length) ++ lit ".l1" ++ suffixOf n ≠ n := by
    intro h
    have := congrArg List.length h
    have h3 : (lit ".l1").length = 3 := by decide
    simp only [List.length_append, List.length_take, h3] at this
    omega
  have hne' : n.take (n.length - (suffixOf n).length) ++ lit ".l1" ++ suffixOf n ≠ lit ".." := by
    intro h
    have := congrArg List.length h
    have h3 : (lit ".l1").length = 3 := by decide
    have h4 : (lit "..").length = 2 := by decide
    simp only [List.length_append, List.length_take, h3, h4] at this
    omega
  rw [resolve_last d hn, resolve_last d hne']
  intro h
  exact hne (by simpa using h)

/-! ## C117 -/

/-- the input files exist, and these are their texts, in order -/
def Spec.InputTexts (fs : Tree) (inp : List PPath) (texts : List Str) : Prop := List.Forall₂ (fun p t => fs (resolve p) = some t) inp texts

theorem treeTexts_texts {fs : Tree} : ∀ {ps : List PPath} {texts : List Str}, treeTexts fs ps = .ok texts → InputTexts fs ps texts := by
  intro ps
  induction ps with
  | nil => intro texts h; cases h; exact .nil
  | cons p ps ih =>
    intro texts h
    simp only [treeTexts] at h
    split at h
    · cases h
    · rename_i t ht
      split at h
      · cases h
      · rename_i ts hts
        cases h
        exact .cons ht (ih hts)

theorem texts_treeTexts {fs : Tree} {ps : List PPath} {texts : List Str} (h : InputTexts fs ps texts) : treeTexts fs ps = .ok texts := by
  induction h with
  | nil => rfl
  | cons h1 _ ih => simp only [treeTexts, h1, ih]

/-- C117: a failed `learn1` or `learn2` leaves every file as it was. -/
theorem C117_failed {cmd : PpCmd} (hc : cmd ≠ .learn) {a : PpArgs} {fs fs' : Tree} {e : Exc} (h : ppLearnCodes cmd a fs = (fs', some e)) : fs' = fs := by
  cases cmd with
  | learn => exact absurd rfl hc
  | learn1 =>
    rcases ppStage1_cases a fs with ⟨e', h1⟩ | ⟨texts, t, _, _, h1⟩
    · simp only [ppLearnCodes, h1, Prod.mk.injEq] at h; exact h.1.symm
    · simp [ppLearnCodes, h1] at h
  | learn2 =>
    rcases ppStage2_cases a fs with ⟨e', h1⟩ | ⟨texts, t, t2, _, _, _, ⟨_, h1⟩ | ⟨_, q, _, h1⟩⟩
    · simp only [ppLearnCodes, h1, Prod.mk.injEq] at h; exact h.1.symm
    · simp [ppLearnCodes, h1] at h
    · simp [ppLearnCodes, h1] at h

/-- C117: a failed `learn` leaves every file as it was, or it has written the level 1 vocabulary and nothing else. The full claim is false, see
`C117_half_done_refuted`. -/
theorem C117_failed_learn_partial {a : PpArgs} {fs fs' : Tree} {e : Exc} (h : ppLearnCodes .learn a fs = (fs', some e)) : fs' = fs ∨
    ∃ texts t, InputTexts fs a.inp texts ∧ ppLearn1 a.info1 a.ord1 texts a.charMin a.wordMin a.size1 a.minEv1 a.prepared = .ok t ∧
      fs' = fs.put (resolve a.l1) t := by
  rcases ppStage1_cases a fs with ⟨e', h1⟩ | ⟨texts, t, ht, hl, h1⟩
  · simp only [ppLearnCodes, h1, Prod.mk.injEq] at h; exact .inl h.1.symm
  · simp only [ppLearnCodes, h1] at h
    rcases ppStage2_cases a (fs.put (resolve a.l1) t) with ⟨e', h2⟩ | ⟨_, _, _, _, _, _, ⟨_, h2⟩ | ⟨_, q, _, h2⟩⟩
    · rw [h2, Prod.mk.injEq] at h; exact .inr ⟨texts, t, treeTexts_texts ht, hl, h.1.symm⟩
    · rw [h2] at h; simp at h
    · rw [h2] at h; simp at h

/-- C117: `learn1` writes the vocabulary learned from the input files to its file, and changes no other one. -/
theorem C117_learn1 {a : PpArgs} {fs fs' : Tree} (h : ppLearnCodes .learn1 a fs = (fs', none)) :
    ∃ texts t, InputTexts fs a.inp texts ∧ ppLearn1 a.info1 a.ord1 texts a.charMin a.wordMin a.size1 a.minEv1 a.prepared = .ok t ∧
      fs' (resolve a.l1) = some t ∧ ∀ q, q ≠ resolve a.l1 → fs' q = fs q := by
  rcases ppStage1_cases a fs with ⟨e', h1⟩ | ⟨texts, t, ht, hl, h1⟩
  · simp [ppLearnCodes, h1] at h
  · simp only [ppLearnCodes, h1, Prod.mk.injEq, and_true] at h
    subst h
    exact ⟨texts, t, treeTexts_texts ht, hl, by simp [Tree.put], fun q hq => by simp [Tree.put, hq]⟩

/-- C117: `learn2` writes the vocabulary learned from the level 1 file and the input files. With another file for level 1 nothing else changes; with the same path the
level 1 vocabulary is kept under the name with `.l1`, and nothing else changes. Missing: two different paths to one file, see `C117_alias_refuted`. -/
theorem C117_learn2_partial {a : PpArgs} {fs fs' : Tree} (h : ppLearnCodes .learn2 a fs = (fs', none)) {d : PPath} {n : Str} (hv : a.vocab = d ++ [n])
    (hn : n ≠ lit "..") :
    ∃ texts t t2, InputTexts fs a.inp texts ∧ fs (resolve a.l1) = some t ∧
      ppLearn2 a.info2 a.ord2 (some t) texts a.size2 a.minEv2 a.prepared = .ok t2 ∧ fs' (resolve a.vocab) = some t2 ∧
      (resolve a.l1 ≠ resolve a.vocab → fs' (resolve a.l1) = some t ∧ ∀ q, q ≠ resolve a.vocab → fs' q = fs q) ∧
      (a.l1 = a.vocab → ∃ q, l1Path a.vocab = .ok q ∧ fs' (resolve q) = some t ∧ ∀ r, r ≠ resolve q → r ≠ resolve a.vocab → fs' r = fs r) := by
  rcases ppStage2_cases a fs with ⟨e', h1⟩ | ⟨texts, t, t2, ht, hf, hl, ⟨he, h1⟩ | ⟨he, q, hq, h1⟩⟩
  · simp [ppLearnCodes, h1] at h
  · simp only [ppLearnCodes, h1, Prod.mk.injEq, and_true] at h
    subst h
    refine ⟨texts, t, t2, treeTexts_texts ht, hf, hl, by simp [Tree.put], fun hr => ⟨?_, fun q hq => by simp [Tree.put, hq]⟩, fun h => absurd h he⟩
    simp only [Tree.put, if_neg hr, hf]
  · simp only [ppLearnCodes, h1, Prod.mk.injEq, and_true] at h
    subst h
    refine ⟨texts, t, t2, treeTexts_texts ht, hf, hl, by simp [Tree.put], fun hr => absurd (by rw [he]) hr, fun _ => ⟨q, hq, ?_, fun r h1 h2 => ?_⟩⟩
    · have hne : resolve q ≠ resolve a.vocab := by rw [hv] at hq ⊢; exact l1Path_resolve hn hq
      simp only [Tree.put, if_neg hne, Tree.move, if_true]
      rw [← he, hf]
    · simp only [Tree.put, if_neg h2, Tree.move, if_neg h1]

/-- C117: with two different paths to one file, `learn2` replaces the level 1 vocabulary by the level 2 vocabulary and changes nothing else. -/
theorem C117_alias {a : PpArgs} {fs fs' : Tree} (h : ppLearnCodes .learn2 a fs = (fs', none)) (hne : a.l1 ≠ a.vocab) (he : resolve a.l1 = resolve a.vocab) :
    ∃ texts t t2, fs (resolve a.l1) = some t ∧ InputTexts fs a.inp texts ∧
      ppLearn2 a.info2 a.ord2 (some t) texts a.size2 a.minEv2 a.prepared = .ok t2 ∧ fs' (resolve a.l1) = some t2 ∧ ∀ q, q ≠ resolve a.l1 → fs' q = fs q := by
  rcases ppStage2_cases a fs with ⟨e', h1⟩ | ⟨texts, t, t2, ht, hf, hl, ⟨_, h1⟩ | ⟨he', _⟩⟩
  · simp [ppLearnCodes, h1] at h
  · simp only [ppLearnCodes, h1, Prod.mk.injEq, and_true] at h
    subst h
    exact ⟨texts, t, t2, hf, treeTexts_texts ht, hl, by simp [Tree.put, he], fun q hq => by rw [he] at hq; simp [Tree.put, hq]⟩
  · exact absurd he' hne

theorem treeTexts_congr {fs fs' : Tree} : ∀ {ps : List PPath}, (∀ p ∈ ps, fs' (resolve p) = fs (resolve p)) → treeTexts fs' ps = treeTexts fs ps := by
  intro ps
  induction ps with
  | nil => intro _; rfl
  | cons p ps ih =>
    intro h
    simp only [treeTexts, h p (by simp), ih fun q hq => h q (by simp [hq])]

/-- C117: `learn` to a file that is not one of its inputs: both vocabularies are those of `ppLearnBoth` (see C87), the final one is in the file named, the level 1 one in
the file with `.l1`, and nothing else changes. -/
theorem C117_learn {a : PpArgs} (h1 : a.vocabL1 = none) {fs fs' : Tree} (h : ppLearnCodes .learn a fs = (fs', none)) {d : PPath} {n : Str} (hv : a.vocab = d ++ [n])
    (hn : n ≠ lit "..") (hinp : ∀ p ∈ a.inp, resolve p ≠ resolve a.vocab) :
    ∃ texts t t2 q, InputTexts fs a.inp texts ∧
      ppLearnBoth a.info1 a.info2 a.ord1 a.ord2 texts a.charMin a.wordMin a.size1 a.minEv1 a.size2 a.minEv2 a.prepared = .ok (t, t2) ∧
      l1Path a.vocab = .ok q ∧ resolve q ≠ resolve a.vocab ∧ fs' (resolve a.vocab) = some t2 ∧ fs' (resolve q) = some t ∧
      ∀ r, r ≠ resolve q → r ≠ resolve a.vocab → fs' r = fs r := by
  have hl1 : a.l1 = a.vocab := by simp [PpArgs.l1, h1]
  rcases ppStage1_cases a fs with ⟨e', h2⟩ | ⟨texts, t, ht, hl, h2⟩
  · simp [ppLearnCodes, h2] at h
  · simp only [ppLearnCodes, h2] at h
    obtain ⟨texts', t', t2, ht', hf, hl2, hfin, _, hq⟩ := C117_learn2_partial (a := a) (fs := fs.put (resolve a.l1) t) (fs' := fs') h hv hn
    have htt : texts' = texts := by
      replace ht' := texts_treeTexts ht'
      rw [treeTexts_congr (fs := fs) (by intro p hp; simp only [Tree.put, hl1, if_neg (hinp p hp)]), ht] at ht'
      injection ht' with ht'; exact ht'.symm
    have htt2 : t' = t := by
      simp only [Tree.put, if_true] at hf
      injection hf with hf; exact hf.symm
    subst htt htt2
    obtain ⟨q, hq1, hq2, hq3⟩ := hq hl1
    have hne : resolve q ≠ resolve a.vocab := by rw [hv] at hq1 ⊢; exact l1Path_resolve hn hq1
    refine ⟨texts', t', t2, q, treeTexts_texts ht, by simp only [ppLearnBoth, hl, hl2], hq1, hne, hfin, hq2, fun r hr1 hr2 => ?_⟩
    rw [hq3 r hr1 hr2]
    simp only [Tree.put, hl1, if_neg hr2]

/-- C117: `encode` writes the encoding of the input file to the output file, as C87 describes it, if the output is neither the input nor the
vocabulary; no other file changes. -/
theorem C117_encode_partial {outFirst pieces : Bool} {vocab inp out : PPath} {fs : Tree} {t text : Str} {v : List Ty} {c : PpCodec}
    (hi : fs (resolve inp) = some text) (hv : fs (resolve vocab) = some t) (h1 : resolve out ≠ resolve inp) (h2 : resolve out ≠ resolve vocab)
    (hr : ppReadVocab t = .ok v) (hc : PpCodec.make v = .ok c) :
    ppEncodeFiles outFirst pieces vocab inp out fs = (fs.put (resolve out) (ppCliEncode c pieces text).1, (ppCliEncode c pieces text).2) := by
  have e1 : (fs.put (resolve out) []) (resolve inp) = some text := by simp only [Tree.put, if_neg (Ne.symm h1), hi]
  have e2 : (fs.put (resolve out) []) (resolve vocab) = some t := by simp only [Tree.put, if_neg (Ne.symm h2), hv]
  have e0 : ((if outFirst = true then fs.put (resolve out) [] else fs) (resolve inp)).isNone = false := by
    cases outFirst <;> simp [e1, hi]
  simp only [ppEncodeFiles, e0, Bool.false_eq_true, if_false, e2, hr, hc, e1, Option.getD_some]

/-- C117: encoding a file onto itself empties it. -/
theorem C117_encode_same {outFirst pieces : Bool} {vocab inp out : PPath} {fs : Tree} {t text : Str} {v : List Ty} {c : PpCodec}
    (hi : fs (resolve inp) = some text) (hv : fs (resolve vocab) = some t) (h1 : resolve out = resolve inp) (h2 : resolve out ≠ resolve vocab)
    (hr : ppReadVocab t = .ok v) (hc : PpCodec.make v = .ok c) :
    ppEncodeFiles outFirst pieces vocab inp out fs = (fs.put (resolve inp) [], none) := by
  have e1 : (fs.put (resolve out) []) (resolve inp) = some [] := by simp only [Tree.put, h1, if_true]
  have e2 : (fs.put (resolve out) []) (resolve vocab) = some t := by simp only [Tree.put, if_neg (Ne.symm h2), hv]
  have e0 : ((if outFirst = true then fs.put (resolve out) [] else fs) (resolve inp)).isNone = false := by
    cases outFirst <;> simp [e1, hi]
  simp only [ppEncodeFiles, e0, Bool.false_eq_true, if_false, e2, hr, hc, e1, Option.getD_some]
  rw [h1]
  rfl

/-! ## examples and counterexamples -/

/-- arguments for the examples: one input file, characters only at level 1, at most one merge at level 2 -/
def exPpArgs : PpArgs :=
  { inp := [[lit "in"]], vocab := [lit "v.tsv"], charMin := 1, wordMin := 1, size1 := -1, minEv1 := 1, size2 := 1, minEv2 := 1, info1 := lit "1", info2 := lit "2",
    ord1 := ordId, ord2 := ordId }

/-- the input file and an old vocabulary -/
def exTree : Tree := fun q => if q = [lit "in"] then some (lit "a b\na b\n") else if q = [lit "v.tsv"] then some (lit "old") else none

/-- `learn` goes through, to both files -/
example : (ppLearnCodes .learn exPpArgs exTree).2 = none ∧ l1Path (lit "d" :: exPpArgs.vocab) = .ok [lit "d", lit "v.l1.tsv"] ∧
    ((ppReadVocab (((ppLearnCodes .learn exPpArgs exTree).1 [lit "v.tsv"]).getD [])).toOption.map fun v => (v.map (·.name)).drop 6) =
      some [lit "a", lit "b", lit "a▁"] ∧
    ((ppReadVocab (((ppLearnCodes .learn exPpArgs exTree).1 [lit "v.l1.tsv"]).getD [])).toOption.map fun v => (v.map (·.name)).drop 6) =
      some [lit "a", lit "b"] := by decide +kernel

/-- paths with `..` -/
example : resolve [lit "d", lit "..", lit "v.tsv"] = [lit "v.tsv"] := by decide +kernel

/-- C117 refuted: a failed `learn` can have replaced the old vocabulary by that of level 1. Here level 2 fails on the distinctness of names, see `C87_learn_refuted`. -/
theorem C117_half_done_refuted : ∃ (a : PpArgs) (fs fs' : Tree) (e : Exc), a.vocabL1 = none ∧ ppLearnCodes .learn a fs = (fs', some e) ∧
    fs (resolve a.vocab) = some (lit "old") ∧ ∀ q, fs' q ≠ some (lit "old") := by
  let a : PpArgs := { exPpArgs with size1 := 14, minEv1 := 2 }
  let fs : Tree := fun q => if q = [lit "in"] then some (lit "<s>. <s>,") else if q = [lit "v.tsv"] then some (lit "old") else none
  have h2 : (ppLearnCodes .learn a fs).2.isSome = true := by decide +kernel
  have h3 : (ppLearnCodes .learn a fs).1 [lit "v.tsv"] ≠ some (lit "old") := by decide +kernel
  obtain ⟨e, he⟩ := Option.isSome_iff_exists.1 h2
  have hh : ppLearnCodes .learn a fs = ((ppLearnCodes .learn a fs).1, some e) := by rw [← he]
  refine ⟨a, fs, (ppLearnCodes .learn a fs).1, e, rfl, hh, by decide +kernel, ?_⟩
  intro q
  by_cases hq : q = [lit "v.tsv"]
  · rw [hq]; exact h3
  · rcases C117_failed_learn_partial hh with h | ⟨_, t, _, _, h⟩
    · rw [h]
      simp only [fs, if_neg hq]
      split
      · decide +kernel
      · simp
    · rw [h]
      have hr : resolve a.l1 = [lit "v.tsv"] := by decide +kernel
      simp only [Tree.put, hr, if_neg hq, fs]
      split
      · decide +kernel
      · simp

/-- C117 refuted: if `-vf1` and `-vf` are two different paths to one file, the level 1 vocabulary is lost: no file holds it any more. -/
theorem C117_alias_refuted : ∃ (a : PpArgs) (fs fs' : Tree) (t : Str), ppLearnCodes .learn2 a fs = (fs', none) ∧ fs (resolve a.l1) = some t ∧
    ∀ q, fs' q ≠ some t := by
  let a : PpArgs := { exPpArgs with vocabL1 := some [lit "d", lit "..", lit "v.tsv"] }
  let fs : Tree := (ppLearnCodes .learn1 exPpArgs exTree).1
  have h2 : (ppLearnCodes .learn2 a fs).2 = none := by decide +kernel
  have hne : (ppLearnCodes .learn2 a fs).1 [lit "v.tsv"] ≠ fs [lit "v.tsv"] := by decide +kernel
  have hh : ppLearnCodes .learn2 a fs = ((ppLearnCodes .learn2 a fs).1, none) := by rw [← h2]
  have hr : resolve a.l1 = [lit "v.tsv"] := by decide +kernel
  obtain ⟨texts, t, t2, hf, _, _, hf', ho⟩ := C117_alias (a := a) hh (by decide +kernel) (by decide +kernel)
  refine ⟨a, fs, _, t, hh, hf, ?_⟩
  rw [hr] at hf hf' ho
  intro q
  by_cases hq : q = [lit "v.tsv"]
  · rw [hq, ← hf]; exact hne
  · rw [ho q hq]
    have h1 : (ppLearnCodes .learn1 exPpArgs exTree).2 = none := by decide +kernel
    have hh1 : ppLearnCodes .learn1 exPpArgs exTree = (fs, none) := by rw [← h1]
    obtain ⟨_, _, _, _, _, ho1⟩ := C117_learn1 hh1
    have hr1 : resolve exPpArgs.l1 = [lit "v.tsv"] := by decide +kernel
    rw [hr1] at ho1
    rw [ho1 q hq]
    simp only [exTree, if_neg hq]
    split
    · rw [← hf]; decide +kernel
    · simp

/-- C117 refuted: a second `learn2` on the same path renames the level 2 vocabulary to the name of the level 1 vocabulary, which is lost. -/
theorem C117_again_refuted : ∃ (a : PpArgs) (fs fs1 fs2 : Tree) (q : PPath), a.l1 = a.vocab ∧ ppLearnCodes .learn2 a fs = (fs1, none) ∧
    ppLearnCodes .learn2 a fs1 = (fs2, none) ∧ l1Path a.vocab = .ok q ∧ fs1 (resolve q) = fs (resolve a.vocab) ∧ fs2 (resolve q) = fs1 (resolve a.vocab) ∧
    fs2 (resolve q) ≠ fs (resolve a.vocab) ∧ fs2 (resolve a.vocab) ≠ fs (resolve a.vocab) := by
  let fs : Tree := (ppLearnCodes .learn1 exPpArgs exTree).1
  let fs1 : Tree := (ppLearnCodes .learn2 exPpArgs fs).1
  have h1 : (ppLearnCodes .learn2 exPpArgs fs).2 = none := by decide +kernel
  have h2 : (ppLearnCodes .learn2 exPpArgs fs1).2 = none := by decide +kernel
  refine ⟨exPpArgs, fs, fs1, (ppLearnCodes .learn2 exPpArgs fs1).1, [lit "v.l1.tsv"], rfl, by rw [← h1], by rw [← h2], by decide +kernel, by decide +kernel,
    by decide +kernel, by decide +kernel, by decide +kernel⟩

/-- C117 refuted: `bpepp encode text -o text` empties the text, and `-o` empties its file even when the vocabulary does not exist. -/
theorem C117_encode_refuted : ∃ (fs : Tree) (vocab inp out : PPath), fs (resolve inp) ≠ some [] ∧
    (ppEncodeFiles false false vocab inp inp fs).2 = none ∧ (ppEncodeFiles false false vocab inp inp fs).1 (resolve inp) = some [] ∧
    fs (resolve out) = some (lit "old") ∧ (ppEncodeFiles false false [lit "missing"] inp out fs).2 = some .fileNotFound ∧
    (ppEncodeFiles false false [lit "missing"] inp out fs).1 (resolve out) = some [] :=
  ⟨fun q => if q = [lit "out"] then some (lit "old") else (ppLearnCodes .learn1 exPpArgs exTree).1 q, [lit "v.tsv"], [lit "in"], [lit "out"], by decide +kernel⟩

/-- the hypotheses of `C117_encode_partial` -/
example : (ppEncodeFiles true false [lit "v.tsv"] [lit "in"] [lit "out"] (ppLearnCodes .learn1 exPpArgs exTree).1).2 = none ∧
    (ppEncodeFiles true false [lit "v.tsv"] [lit "in"] [lit "out"] (ppLearnCodes .learn1 exPpArgs exTree).1).1 [lit "out"] = some (lit "6 5 7 5\n6 5 7 5\n") := by
  decide +kernel

end Verif
