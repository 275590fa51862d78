import Verif.Model.Main
import Verif.Props.Restore
import Verif.Props.Coverage
import Verif.Props.Cli
import Mathlib.Algebra.BigOperators.Ring.Finset
/-!
# Properties C88 and C89: `nlcodec learn`, then `encode`, then `decode`; failed runs
-/

namespace Verif
open Spec

/-! ## what a coverage of 1 keeps -/

/-- the coverage filter cuts nothing from the counts `tf` -/
def NoCut (A : Acc) (cov : Option A.F) (tf : Dict Str Int) : Prop :=
  ∀ c, cov = some c → A.valid c = true ∧ ∃ kept, filterCoverage A (popReserved tf) c = .ok (kept, 0) ∧ kept.Perm (popReserved tf)

theorem noCut_none (A : Acc) (tf : Dict Str Int) : NoCut A none tf := by intro c h; cases h

/-- a counted term is in the vocabulary if nothing is cut -/
theorem kept_nocut {A : Acc} {level : Int} {tf : Dict Str Int} {cov : Option A.F} {lc : Option Int} {mf vs : Int} {vocab : List Ty}
    (hnd : (Dict.keys tf).Nodup) (hcut : NoCut A cov tf) (h : getInitVocab A level tf cov lc mf vs = .ok vocab) (hmf : mf ≤ 1) (hvs : vs ≤ 0)
    {p : Str × Int} (hp : p ∈ tf) : p.1 ∈ names vocab := by
  have key : ∀ tf2 : Dict Str Int, ∀ u, tf2.Perm (popReserved tf) →
      (.ok (updateReserved tf (u + (trimTerms (sortByFreq tf2) mf vs).2) lc ++ (trimTerms (sortByFreq tf2) mf vs).1.zipIdx.map fun (p, i) =>
        ({ name := p.1, level := level, idx := i + 6, freq := p.2, kids := [] } : Ty)) : Py (List Ty)) = .ok vocab → p.1 ∈ names vocab := by
    intro tf2 u hperm e
    injection e with e
    subst e
    rw [names_reserved_append]
    by_cases hr : p.1 ∈ reservedNames
    · exact List.mem_append_left _ hr
    · apply List.mem_append_right
      have h1 : p ∈ sortByFreq tf2 := (sortByFreq_perm _).symm.subset (hperm.symm.subset ((mem_popReserved hnd p.1 p.2).2 ⟨hp, hr⟩))
      have h2 : (trimTerms (sortByFreq tf2) mf vs).1 = sortByFreq tf2 := by
        simp only [trimTerms]
        rw [if_neg (by omega), if_neg (by omega)]
      rw [h2]
      exact List.mem_map.2 ⟨p, h1, rfl⟩
  simp only [getInitVocab] at h
  cases cov with
  | none => exact key _ 0 (List.Perm.refl _) h
  | some c =>
    obtain ⟨_, kept, hk, hperm⟩ := hcut c rfl
    simp only [hk] at h
    exact key _ 0 hperm h

theorem total_count_le {K P : List Str} (hK : K.Nodup) : (K.map fun k => (P.count k : Int)).sum ≤ P.length := by
  induction P with
  | nil => simp
  | cons x P ih =>
    have h1 : ∀ K : List Str, (K.map fun k => ((x :: P).count k : Int)).sum = (K.map fun k => (P.count k : Int)).sum + (K.count x : Int) := by
      intro K
      induction K with
      | nil => simp
      | cons k K ihK =>
        rw [List.map_cons, List.sum_cons, ihK, List.map_cons, List.sum_cons, List.count_cons, List.count_cons]
        by_cases e : x = k
        · subst e; simp; omega
        · have e' : ¬ k = x := fun h => e h.symm
          simp [e, e']; omega
    have h2 := List.nodup_iff_count_le_one.1 hK x
    rw [h1, List.length_cons]
    push_cast
    omega

/-- in binary64 a coverage of 1 cuts nothing from the counts of a text that is not astronomically long -/
theorem noCut_float {tf : Dict Str Int} {P : List Str} (hnd : (Dict.keys tf).Nodup) (hc : ∀ n f, (n, f) ∈ tf → n ∈ P ∧ f = P.count n) {D : Nat}
    (hD : (Dict.keys tf).length ≤ D) (hb : D * P.length < 2 ^ 51) {cov : Option accF64.F} (hv : ∀ c : Dy, cov = some c → c.val = 1) :
    NoCut accF64 cov tf := by
  intro c hcc
  have h1 : Dy.val c = 1 := hv c hcc
  have hval : accF64.valid c = true := by
    have hm : 0 < Dy.m c := by
      rcases Nat.eq_zero_or_pos (Dy.m c) with h | h
      · have : Dy.val c = 0 := by
          obtain ⟨m, e⟩ := c
          rw [Dy.val_eq]
          simp only at h
          simp [h]
        rw [this] at h1
        norm_num at h1
      · exact h
    have hge : Dy.ge ⟨1, 0⟩ c = true := by
      refine (Dy.ge_iff ⟨1, 0⟩ c).2 ?_
      rw [h1, Dy.val_eq]
      norm_num
    have : (decide (0 < Dy.m c) && Dy.ge ⟨1, 0⟩ c) = true := by rw [hge, Bool.and_true]; exact decide_eq_true hm
    exact this
  refine ⟨hval, ?_⟩
  have hsub := popReserved_sublist tf
  have hpos : ∀ p ∈ popReserved tf, 1 ≤ p.2 := by
    intro p hp
    obtain ⟨h2, h3⟩ := hc p.1 p.2 (hsub.subset hp)
    have := List.count_pos_iff.2 h2
    omega
  refine C17_full_partial (nodup_popReserved hnd) hpos hval h1 ?_
  have h2 : total ((popReserved tf).map (·.2)) ≤ P.length := by
    have e : (popReserved tf).map (·.2) = (Dict.keys (popReserved tf)).map fun k => (P.count k : Int) := by
      rw [Dict.keys, List.map_map]
      apply List.map_congr_left
      intro p hp
      exact (hc p.1 p.2 (hsub.subset hp)).2
    rw [e, total_eq, isum_eq_sum]
    exact total_count_le (nodup_popReserved hnd)
  have h3 : (popReserved tf).length ≤ D := by
    have := hsub.length_le
    simp only [Dict.keys, List.length_map] at hD
    omega
  have h4 : ((popReserved tf).length : Int) * total ((popReserved tf).map (·.2)) ≤ D * P.length := by
    apply mul_le_mul (by exact_mod_cast h3) h2 _ (by positivity)
    rw [total_eq]
    apply isum_nonneg
    intro x hx
    obtain ⟨p, hp, rfl⟩ := List.mem_map.1 hx
    have := hpos p hp
    omega
  calc _ ≤ ((D * P.length : Nat) : Int) := by push_cast; exact h4
    _ < _ := by exact_mod_cast hb

/-! ## the sizes involved -/

theorem lines_total {text : Str} {ls : List Str} (h : Lines text ls) :
    (ls.map fun l => l.length + 1).sum ≤ text.length + 1 ∧ ∀ l ∈ ls, ∀ c ∈ l, c ∈ text := by
  induction h with
  | nil => simp
  | last hne hc => simp
  | lf hc hl ih | cr hc _ hl ih | crlf hc hl ih =>
    obtain ⟨i1, i2⟩ := ih
    simp only [List.map_cons, List.sum_cons, List.length_append, List.length_cons]
    refine ⟨by omega, ?_⟩
    intro l' hl' c hc'
    rcases List.mem_cons.1 hl' with rfl | hl'
    · simp [hc']
    · have := i2 l' hl' c hc'
      simp [this]

theorem tokens_total {l : Str} {ws : List Str} (h : Tokens l ws) : (ws.map fun w => w.length + 1).sum ≤ l.length + 1 := by
  induction h with
  | blank _ => simp
  | last _ _ _ => simp; omega
  | cons _ _ _ _ _ ih => simp at *; omega

theorem intercalate_length (sep : Nat) {ws : List Str} : (List.intercalate [sep] ws).length ≤ (ws.map fun w => w.length + 1).sum := by
  induction ws with
  | nil => simp
  | cons w ws ih =>
    cases ws with
    | nil => simp
    | cons v ws =>
      rw [List.intercalate_cons_cons]
      simp only [List.length_append, List.map_cons, List.sum_cons, List.length_singleton] at *
      omega

theorem tokens_lines_total {text : Str} {ls : List Str} {wss : List (List Str)} (hl : Lines text ls) (hw : List.Forall₂ Tokens ls wss) :
    ((wss.map fun ws => (ws.map fun w => w.length + 1).sum).sum ≤ text.length + 1) ∧ ∀ ws ∈ wss, ∀ w ∈ ws, ∀ c ∈ w, c ∈ text := by
  obtain ⟨h1, h2⟩ := lines_total hl
  have h3 : (wss.map fun ws => (ws.map fun w => w.length + 1).sum).sum ≤ (ls.map fun l => l.length + 1).sum := by
    clear h1 h2 hl
    induction hw with
    | nil => simp
    | cons h _ ih => have := tokens_total h; simp only [List.map_cons, List.sum_cons]; omega
  refine ⟨by omega, ?_⟩
  clear h1 h3 hl
  induction hw with
  | nil => simp
  | cons h _ ih =>
    intro ws hws w hw c hc
    rcases List.mem_cons.1 hws with rfl | hws
    · exact h2 _ (by simp) c (mem_of_tokens h w hw c hc).1
    · exact ih (fun l hl => h2 l (by simp [hl])) ws hws w hw c hc

/-- the characters of a text as pieces, and the marker: how many keys a table of character counts can have -/
theorem char_keys_length {text : Str} {K : List Str} (hK : K.Nodup) (h : ∀ k ∈ K, ∃ c, k = [c] ∧ (c = SP ∨ c ∈ text)) :
    K.length ≤ text.dedup.length + 1 := by
  have hsub : K ⊆ [SP] :: text.dedup.map fun c => [c] := by
    intro k hk
    obtain ⟨c, rfl, hc⟩ := h k hk
    rcases hc with rfl | hc
    · exact List.mem_cons_self
    · exact List.mem_cons_of_mem _ (List.mem_map.2 ⟨c, List.mem_dedup.2 hc, rfl⟩)
  have := (List.subperm_of_subset hK hsub).length_le
  simpa using this

/-- character counts of a text are not cut by a coverage of 1 -/
theorem noCut_char {text : Str} {ls : List Str} {wss : List (List Str)} (hl : Lines text ls) (hw : List.Forall₂ Tokens ls wss) {data : List Str}
    (hd : List.Forall₂ Tokens data wss) (hb : (text.dedup.length + 1) * (text.length + 1) < 2 ^ 51) {cov : Option accF64.F}
    (hv : ∀ c : Dy, cov = some c → c.val = 1) : NoCut accF64 cov (termFrequencies .char data).1 := by
  obtain ⟨h1, h2⟩ := tokens_lines_total hl hw
  have hc := C15_counts (k := .char) data wss hd (Or.inr rfl)
  simp only [reduceCtorEq, if_false] at hc
  have hnd := termFrequencies_nodup .char data
  have hlen : (wss.flatMap fun ws => (List.intercalate [0x2581] ws).map fun c => [c]).length ≤ text.length + 1 := by
    refine le_trans ?_ h1
    clear hc hd hw h1 h2
    induction wss with
    | nil => simp
    | cons ws wss ih =>
      have := intercalate_length 0x2581 (ws := ws)
      rw [List.flatMap_cons, List.length_append, List.length_map, List.map_cons, List.sum_cons]
      omega
  refine noCut_float hnd (fun n f h => (hc n f).1 h) (char_keys_length hnd ?_) (lt_of_le_of_lt (Nat.mul_le_mul (le_refl _) hlen) hb) hv
  intro k hk
  obtain ⟨⟨n, f⟩, hp, rfl⟩ := List.mem_map.1 hk
  obtain ⟨ws, hws, hn⟩ := List.mem_flatMap.1 ((hc n f).1 hp).1
  obtain ⟨c, hc', rfl⟩ := List.mem_map.1 hn
  refine ⟨c, rfl, ?_⟩
  rw [← join_eq_intercalate] at hc'
  rcases mem_join hc' with h | ⟨w, hw', h⟩
  · exact .inl (List.mem_singleton.1 h)
  · exact .inr (h2 ws hws w hw' c h)

/-- weighted sums over a table of counts are sums over the counted items -/
theorem sum_counted {tf : Dict Str Int} {P : List Str} (hnd : (Dict.keys tf).Nodup) (hc : ∀ n f, (n, f) ∈ tf ↔ n ∈ P ∧ f = P.count n) (g : Str → Nat) :
    (tf.map fun p => p.2 * (g p.1 : Int)).sum = ((P.map g).sum : Nat) := by
  have hperm : tf.Perm (P.dedup.map fun n => (n, (P.count n : Int))) := by
    rw [List.perm_ext_iff_of_nodup (List.Nodup.of_map _ hnd) ((List.nodup_dedup P).map fun a b h => (Prod.mk.inj h).1)]
    rintro ⟨n, f⟩
    rw [hc, List.mem_map]
    constructor
    · rintro ⟨h, rfl⟩; exact ⟨n, List.mem_dedup.2 h, rfl⟩
    · rintro ⟨m, h, e⟩
      cases e
      exact ⟨List.mem_dedup.1 h, rfl⟩
  rw [(hperm.map _).sum_eq, List.map_map, ← List.sum_toFinset _ (List.nodup_dedup P), Finset.sum_list_map_count P g]
  have : P.dedup.toFinset = P.toFinset := by ext; simp
  rw [this]
  rw [Nat.cast_sum]
  refine Finset.sum_congr rfl fun x _ => ?_
  simp only [Function.comp_apply, nsmul_eq_mul, Nat.cast_mul]
  congr 3
  exact lawful_beq_subsingleton _ _

/-- the characters the BPE learner counts are those of the text with a marker after every word -/
theorem chCount_text {data : List Str} {wss : List (List Str)} (hd : List.Forall₂ Tokens data wss) (c : Nat) :
    chCount (termFrequencies .word data).1 c = ((wss.flatten.flatMap fun w => w ++ [SP]).count c : Nat) := by
  have hc := C15_counts (k := .word) data wss hd (Or.inl rfl)
  simp only [if_true] at hc
  rw [show wss.flatMap (fun ws => ws) = wss.flatten from List.flatMap_id] at hc
  have := sum_counted (termFrequencies_nodup .word data) hc (fun w => (w ++ [0x2581]).count c)
  rw [chCount, List.count_flatMap]
  exact this

theorem noCut_bpe {text : Str} {ls : List Str} {wss : List (List Str)} (hl : Lines text ls) (hw : List.Forall₂ Tokens ls wss) {data : List Str}
    (hd : List.Forall₂ Tokens data wss) (hb : (text.dedup.length + 1) * (text.length + 1) < 2 ^ 51) {cov : Option accF64.F}
    (hv : ∀ c : Dy, cov = some c → c.val = 1) {cf : Dict Str Int} (hnd : (Dict.keys cf).Nodup)
    (hcf : ∀ n f, (n, f) ∈ cf ↔ ∃ c, n = [c] ∧ f = chCount (termFrequencies .word data).1 c ∧ 0 < f) : NoCut accF64 cov cf := by
  obtain ⟨h1, h2⟩ := tokens_lines_total hl hw
  have hlen : ((wss.flatten.flatMap fun w => w ++ [SP]).map fun c => [c]).length ≤ text.length + 1 := by
    refine le_trans ?_ h1
    clear hcf hnd hd hw h1 h2
    rw [List.length_map]
    induction wss with
    | nil => simp
    | cons ws wss ih =>
      rw [List.flatten_cons, List.flatMap_append, List.length_append, List.map_cons, List.sum_cons]
      have : (ws.flatMap fun w => w ++ [SP]).length = (ws.map fun w => w.length + 1).sum := by simp [List.length_flatMap]
      omega
  have hcount : ∀ c, (((wss.flatten.flatMap fun w => w ++ [SP]).map fun c => [c]).count [c]) = (wss.flatten.flatMap fun w => w ++ [SP]).count c :=
    fun c => List.count_map_of_injective _ (fun c : Nat => [c]) (fun a b h => by simpa using h) c
  have hmem : ∀ n f, (n, f) ∈ cf → n ∈ (wss.flatten.flatMap fun w => w ++ [SP]).map (fun c => [c]) ∧
      f = ((wss.flatten.flatMap fun w => w ++ [SP]).map fun c => [c]).count n := by
    intro n f h
    obtain ⟨c, rfl, rfl, h0⟩ := (hcf n f).1 h
    rw [chCount_text hd] at h0
    refine ⟨List.mem_map.2 ⟨c, List.count_pos_iff.1 (by exact_mod_cast h0), rfl⟩, ?_⟩
    rw [hcount, chCount_text hd]
  refine noCut_float hnd hmem (char_keys_length hnd ?_) (lt_of_le_of_lt (Nat.mul_le_mul (le_refl _) hlen) hb) hv
  intro k hk
  obtain ⟨⟨n, f⟩, hp, rfl⟩ := List.mem_map.1 hk
  obtain ⟨c, hc', rfl⟩ := List.mem_map.1 (hmem n f hp).1
  refine ⟨c, rfl, ?_⟩
  obtain ⟨w, hw', hc'⟩ := List.mem_flatMap.1 hc'
  obtain ⟨ws, hws, hw'⟩ := List.mem_flatten.1 hw'
  rcases List.mem_append.1 hc' with h | h
  · exact .inr (h2 ws hws w hw' c h)
  · exact .inl (List.mem_singleton.1 h)

/-! ## C88 -/

/-- with the model that `learn` leaves, `encode` followed by `decode`, both with or both without `-idx`, turns the text into its lines `wss` with one
space between words; nothing fails and the model file stays as it is -/
def Spec.Restores (J : Json) (ord : Nat → List Nat → List Nat) (A : Acc) (m : Str) (text : Str) (lines : List Str) : Prop :=
  ∀ enc dec : MainArgs A.F, enc.task = .encode → dec.task = .decode → enc.indices = dec.indices →
    ∃ out, mainTask J ord A enc (some m) text = (some m, out, none) ∧
      mainTask J ord A dec (some m) out = (some m, lines.flatMap (· ++ [10]), none)

theorem inp_tokens {text : Str} {ls : List Str} {wss : List (List Str)} (hl : Lines text ls) (hw : List.Forall₂ Tokens ls wss) :
    List.Forall₂ Tokens (inpLines text) wss :=
  (inpLines_tokens hl hw).imp fun l _ e => e ▸ tokens_split l

theorem inp_decoded {text : Str} {ls : List Str} (hl : Lines text ls) (hs : ∀ c ∈ text, ¬ (0xD800 ≤ c ∧ c ≤ 0xDFFF)) : Decoded (inpLines text) := by
  have h1 := (lines_total hl).2
  have h2 := inpLines_spec hl
  intro i hi c hc
  obtain ⟨l, hl', h⟩ := mem_of_forall₂_right h2 i hi
  rcases h with rfl | rfl
  · exact hs c (h1 _ hl' c hc)
  · rcases List.mem_append.1 hc with hc | hc
    · exact hs c (h1 _ hl' c hc)
    · rw [List.mem_singleton.1 hc]; omega

theorem restores_of {J : Json} {ord : Nat → List Nat → List Nat} {A : Acc} {m : Str} {s : Scheme} (hload : loadScheme J m = .ok s) {text : Str}
    {lines : List Str} (h : ∀ b, ∃ out, cliEncode s b text = (out, none) ∧ cliDecode s b out = (lines.flatMap (· ++ [10]), none)) :
    Restores J ord A m text lines := by
  intro enc dec he hd hi
  obtain ⟨out, h1, h2⟩ := h enc.indices
  refine ⟨out, ?_, ?_⟩
  · simp only [mainTask, he, hload, h1]
  · simp only [mainTask, hd, hload, ← hi, h2]

theorem saveModel_ok {J : Json} {k : Kind} {table : List Ty} {s : Scheme} {text : Str} (h1 : Scheme.make k table = .ok s) (h2 : s.save J = .ok text)
    (model : Option Str) : saveModel J k table model = (some text, none) := by
  simp only [saveModel, h1, h2]

/-- words separated by single spaces -/
def Spec.spaced (wss : List (List Str)) : List Str := wss.map (List.intercalate [32])

theorem spaced_flatMap (wss : List (List Str)) : (spaced wss).flatMap (· ++ [10]) = wss.flatMap fun ws => List.intercalate [32] ws ++ [10] := by
  rw [spaced, List.flatMap_map]

section
variable {J : Json} (hJ : JsonLaws J) {ord : Nat → List Nat → List Nat} {text : Str} (hs : ∀ c ∈ text, ¬ (0xD800 ≤ c ∧ c ≤ 0xDFFF)) {ls : List Str}
  (hl : Lines text ls) {wss : List (List Str)} (hw : List.Forall₂ Tokens ls wss)

include hJ hs hl hw

/-- C88 for words: with no limit on the size and no minimum frequency above 1 (the default), `nlcodec learn -l word` succeeds, and its model restores
the text it was learned from. -/
theorem C88_word (A : Acc) {args : MainArgs A.F} (ht : args.task = .learn) (hlev : args.level = some .word) (hraw : args.termFreqs = false)
    (hmf : ∀ n, args.minFreq = some n → n ≤ 1) (hvs : args.vocabSize ≤ 0) (model : Option Str) :
    ∃ m, mainTask J ord A args model text = (some m, [], none) ∧ Restores J ord A m text (spaced wss) := by
  have hmf' : effMinFreq .word (args.minFreq.getD 0) ≤ 1 := by
    unfold effMinFreq
    cases h : args.minFreq with
    | none => simp
    | some n =>
      have := hmf n h
      simp only [Option.getD_some]
      split
      · simp
      · omega
  obtain ⟨v, s, m, h1, h2, h3, h4, h5⟩ := C77_learned hJ A (k := .word) (by tauto) (inp_decoded hl hs) args.vocabSize
    (effMinFreq .word (args.minFreq.getD 0)) none (by simp)
  refine ⟨m, ?_, restores_of h5 fun b => ?_⟩
  · simp only [mainTask, ht, hlev, hraw, learnVocab, h1, LevelName.kind, saveModel_ok h2 h4, Bool.false_eq_true, if_false]
  · rw [spaced_flatMap]
    have h1' : getInitVocab A Level.word (termFrequencies .word (inpLines text)).1 none (some (termFrequencies .word (inpLines text)).2)
        (effMinFreq .word (args.minFreq.getD 0)) args.vocabSize = .ok v := h1
    have hi := (C15_contract (termFrequencies_nodup .word (inpLines text)) (counted_pos .word _) h1').indexed
    refine C62_covered_partial (.inl rfl) h2 hi b hl hw fun ws hws w hw' => ?_
    rw [if_pos rfl]
    have hin := (C15_counts (k := .word) _ _ (inp_tokens hl hw) (Or.inl rfl) w _).2 ⟨List.mem_flatMap.2 ⟨ws, hws, by simpa using hw'⟩, rfl⟩
    exact kept_nocut (termFrequencies_nodup .word _) (noCut_none A _) h1' hmf' hvs hin

theorem char_restores {A : Acc} {args : MainArgs A.F} (ht : args.task = .learn) (hlev : args.level = some .char) (hraw : args.termFreqs = false)
    (hmf : args.minFreq = some 1) (hvs : args.vocabSize ≤ 0) (hsp : SP ∉ text) (hcut : NoCut A args.cov (termFrequencies .char (inpLines text)).1)
    (model : Option Str) :
    ∃ m, mainTask J ord A args model text = (some m, [], none) ∧ Restores J ord A m text (spaced wss) := by
  have htext := (tokens_lines_total hl hw).2
  obtain ⟨v, s, m, h1, h2, h3, h4, h5⟩ := C77_learned hJ A (k := .char) (by tauto) (inp_decoded hl hs) args.vocabSize 1 args.cov
    fun c hc => (hcut c hc).1
  refine ⟨m, ?_, restores_of h5 fun b => ?_⟩
  · have : effMinFreq .char (args.minFreq.getD 0) = 1 := by rw [hmf]; rfl
    simp only [mainTask, ht, hlev, hraw, learnVocab, this, h1, LevelName.kind, saveModel_ok h2 h4, Bool.false_eq_true, if_false]
  · rw [spaced_flatMap]
    have h1' : getInitVocab A Level.char (termFrequencies .char (inpLines text)).1 args.cov (some (termFrequencies .char (inpLines text)).2)
        1 args.vocabSize = .ok v := h1
    have hi := (C15_contract (termFrequencies_nodup .char (inpLines text)) (counted_pos .char _) h1').indexed
    refine C62_covered_partial (.inr (.inl rfl)) h2 hi b hl hw fun ws hws w hw' => ?_
    rw [if_neg (by decide)]
    intro c hc
    refine ⟨?_, fun e => hsp (e ▸ htext ws hws w hw' c hc)⟩
    have hin := (C15_counts (k := .char) _ _ (inp_tokens hl hw) (Or.inr rfl) [c] _).2
      ⟨List.mem_flatMap.2 ⟨ws, hws, by rw [if_neg (by decide)]; exact List.mem_map.2 ⟨c, mem_intercalate_of_mem hw' hc _, rfl⟩⟩, rfl⟩
    exact kept_nocut (termFrequencies_nodup .char _) hcut h1' (le_refl _) hvs hin

theorem bpe_restores (hord : ∀ i l, (ord i l).Perm l) {A : Acc} {args : MainArgs A.F} (ht : args.task = .learn) (hlev : args.level = some .bpe)
    (hraw : args.termFreqs = false) (hsp : SP ∉ text) (hcut : ∀ cf : Dict Str Int, (Dict.keys cf).Nodup →
      (∀ n f, (n, f) ∈ cf ↔ ∃ c, n = [c] ∧ f = chCount (termFrequencies .word (inpLines text)).1 c ∧ 0 < f) → NoCut A args.cov cf)
    {model model' : Option Str} {out : Str} (h : mainTask J ord A args model text = (model', out, none)) :
    ∃ m, model' = some m ∧ out = [] ∧ Restores J ord A m text (spaced wss) := by
  have htext := (tokens_lines_total hl hw).2
  have hv : ∀ c, args.cov = some c → A.valid c = true := by
    intro c hc
    obtain ⟨g1, g2⟩ := charFreqs_spec (termFrequencies_word (inpLines text)).2.1
    exact (hcut _ g1 g2 c hc).1
  simp only [mainTask, ht, hlev, hraw, learnVocab, Bool.false_eq_true, if_false, LevelName.kind] at h
  cases hb : bpeLearn ord A (inpLines text) args.vocabSize (effMinFreq .bpe (args.minFreq.getD 0)) args.cov args.minCoEv with
  | error e => rw [hb] at h; simp at h
  | ok vocab =>
    obtain ⟨s, m, h1, _, h3, h4⟩ := C77_learned_bpe hJ hord (inp_decoded hl hs) hv hb
    rw [hb] at h
    simp only [saveModel_ok h1 h3, Prod.mk.injEq] at h
    refine ⟨m, h.1.symm, h.2.1.symm, restores_of h4 fun b => ?_⟩
    rw [spaced_flatMap]
    have hi := (C22_text hord hv hb).1
    refine C62_covered_partial (.inr (.inr rfl)) h1 hi b hl hw fun ws hws w hw' => ?_
    rw [if_neg (by decide)]
    intro c hc
    refine ⟨?_, fun e => hsp (e ▸ htext ws hws w hw' c hc)⟩
    obtain ⟨t1, t2, t3⟩ := termFrequencies_word (inpLines text)
    obtain ⟨cf, v0, C, c1, c2, c3, c4, c5, c6, c0, c7⟩ := bpeLearnTf_cases (ord := ord) t1 t2 t3 (lc := (termFrequencies .word (inpLines text)).2)
      (vs := args.vocabSize) (mf := effMinFreq .bpe (args.minFreq.getD 0)) (minEv := args.minCoEv) hv
    have hin : [c] ∈ names v0 := by
      have hmem := (C15_counts (k := .word) _ _ (inp_tokens hl hw) (Or.inl rfl) w _).2 ⟨List.mem_flatMap.2 ⟨ws, hws, by simpa using hw'⟩, rfl⟩
      have hp : 0 < chCount (termFrequencies .word (inpLines text)).1 c := chCount_pos_of_mem t2 hmem hc
      exact kept_nocut c1 (hcut cf c1 c2) c0 (le_refl _) (by omega) ((c2 [c] _).2 ⟨c, rfl, rfl, hp⟩)
    simp only [bpeLearn] at hb
    rw [c7] at hb
    split at hb
    · obtain ⟨k, C', hk, hrun, _⟩ := C20_merges hord c5 c3.indexed c3.distinct c6 hb
      obtain ⟨new, e, _⟩ := hrun.shape
      rw [e, names, List.map_append]
      exact List.mem_append_left _ hin
    · simp at hb

/-- C88 for characters, with `-mf 1 -cv 0`: the minimum frequency must be given, its default is 20 (`C88_defaults_refuted`).  The text must not contain the
space marker. -/
theorem C88_char (A : Acc) {args : MainArgs A.F} (ht : args.task = .learn) (hlev : args.level = some .char) (hraw : args.termFreqs = false)
    (hmf : args.minFreq = some 1) (hvs : args.vocabSize ≤ 0) (hcov : args.cov = none) (hsp : SP ∉ text) (model : Option Str) :
    ∃ m, mainTask J ord A args model text = (some m, [], none) ∧ Restores J ord A m text (spaced wss) :=
  char_restores hJ hs hl hw ht hlev hraw hmf hvs hsp (hcov ▸ noCut_none A _) model

/-- C88 for BPE, with `-cv 0`: whenever `learn` ends without exception -/
theorem C88_bpe (hord : ∀ i l, (ord i l).Perm l) (A : Acc) {args : MainArgs A.F} (ht : args.task = .learn) (hlev : args.level = some .bpe)
    (hraw : args.termFreqs = false) (hcov : args.cov = none) (hsp : SP ∉ text) {model model' : Option Str} {out : Str}
    (h : mainTask J ord A args model text = (model', out, none)) :
    ∃ m, model' = some m ∧ out = [] ∧ Restores J ord A m text (spaced wss) :=
  bpe_restores hJ hs hl hw hord ht hlev hraw hsp (fun _ _ _ => hcov ▸ noCut_none A _) h

/-- C88 for characters with `-mf 1 -cv 1.0` in binary64.  Missing: texts for which the number of characters times the number of different characters
exceeds 2^51. -/
theorem C88_char_float_partial {args : MainArgs Dy} (ht : args.task = .learn) (hlev : args.level = some .char) (hraw : args.termFreqs = false)
    (hmf : args.minFreq = some 1) (hvs : args.vocabSize ≤ 0) (hcov : ∀ c, args.cov = some c → c.val = 1) (hsp : SP ∉ text)
    (hb : (text.dedup.length + 1) * (text.length + 1) < 2 ^ 51) (model : Option Str) :
    ∃ m, mainTask J ord accF64 args model text = (some m, [], none) ∧ Restores J ord accF64 m text (spaced wss) :=
  char_restores (A := accF64) hJ hs hl hw ht hlev hraw hmf hvs hsp (noCut_char hl hw (inp_tokens hl hw) hb hcov) model

/-- C88 for BPE with `-cv 1.0` in binary64; missing as above. -/
theorem C88_bpe_float_partial (hord : ∀ i l, (ord i l).Perm l) {args : MainArgs Dy} (ht : args.task = .learn) (hlev : args.level = some .bpe)
    (hraw : args.termFreqs = false) (hcov : ∀ c, args.cov = some c → c.val = 1) (hsp : SP ∉ text)
    (hb : (text.dedup.length + 1) * (text.length + 1) < 2 ^ 51) {model model' : Option Str} {out : Str}
    (h : mainTask J ord accF64 args model text = (model', out, none)) :
    ∃ m, model' = some m ∧ out = [] ∧ Restores J ord accF64 m text (spaced wss) :=
  bpe_restores (A := accF64) hJ hs hl hw hord ht hlev hraw hsp (fun _ h1 h2 => noCut_bpe hl hw (inp_tokens hl hw) hb hcov h1 h2) h

end

/-- the default coverage 0.9995 as a binary64 number -/
def defCoverage : Dy := ⟨9002695655113622, -53⟩

/-- C88 is false for `nlcodec learn -l char` with its defaults: characters seen fewer than 20 times are not in the model, so a short text comes back as
`<unk>`, though learning, encoding and decoding succeed. -/
theorem C88_defaults_refuted {J : Json} (hJ : JsonLaws J) (ord : Nat → List Nat → List Nat) (model : Option Str) :
    ∃ m out, mainTask J ord accF64 { task := .learn, level := some .char, cov := some defCoverage } model (lit "ab\n") = (some m, [], none) ∧
      mainTask J ord accF64 { task := .encode, indices := true, cov := some defCoverage } (some m) (lit "ab\n") = (some m, out, none) ∧
      mainTask J ord accF64 { task := .decode, indices := true, cov := some defCoverage } (some m) out = (some m, lit "<unk><unk>\n", none) := by
  have hlines : Lines (lit "ab\n") [lit "ab"] := Lines.lf (l := lit "ab") (r := []) (by decide) .nil
  have htok : List.Forall₂ Tokens [lit "ab"] [[lit "ab"]] := .cons (by
    have := tokens_split (lit "ab")
    rwa [show split (lit "ab") = [lit "ab"] by decide] at this) .nil
  obtain ⟨v, s, m, h1, h2, h3, h4, h5⟩ := C77_learned hJ accF64 (k := .char) (by tauto) (inp_decoded hlines (by decide)) (-1) 20 (some defCoverage)
    (by intro c hc; cases hc; decide)
  have hv : v = (match learnRaw accF64 .char (inpLines (lit "ab\n")) (-1) 20 (some defCoverage) with | .ok v => v | .error _ => []) := by rw [h1]
  have hn : [97] ∉ names v ∧ [98] ∉ names v := by rw [hv]; decide +kernel
  obtain ⟨out, g1, g2⟩ := C62_char h2 true hlines htok
  refine ⟨m, out, ?_, ?_, ?_⟩
  · simp only [mainTask, learnVocab, effMinFreq, Option.getD_none, Int.zero_lt_one, if_true, reduceCtorEq, if_false, h1, LevelName.kind,
      saveModel_ok h2 h4, Bool.false_eq_true]
  · simp only [mainTask, h5, g1]
  · simp only [mainTask, h5, g2]
    have e : List.intercalate [SP] [lit "ab"] = [97, 98] := by decide
    simp only [List.flatMap_cons, List.flatMap_nil, e, hn.1, hn.2, not_false_eq_true, and_self, if_true]
    rfl

/-- A failed `learn` can destroy the model that was there: on empty input, the class scheme truncates the model file and then raises ValueError; the
file that is left cannot be loaded. -/
theorem C89_class_refuted (J : Json) (ord : Nat → List Nat → List Nat) (A : Acc) {args : MainArgs A.F} (ht : args.task = .learn)
    (hlev : args.level = some .clasz) (hraw : args.termFreqs = false) (m : Str) {enc : MainArgs A.F} (he : enc.task = .encode) (text : Str) :
    mainTask J ord A args (some m) [] = (some [], [], some .value) ∧ mainTask J ord A enc (some []) text = (some [], [], some .index) := by
  constructor
  · simp only [mainTask, ht, hlev, hraw, learnVocab, Bool.false_eq_true, if_false, LevelName.kind]
    rfl
  · simp only [mainTask, he]
    rfl

/-- tables with their types at their own indices are saved without exception -/
theorem saveModel_indexed (J : Json) {k : Kind} {table : List Ty} (hi : Indexed table) (hne : table ≠ []) {model model' : Option Str} {e : Exc}
    (h : saveModel J k table model = (model', some e)) : model' = model := by
  simp only [saveModel] at h
  split at h
  · cases h; rfl
  · rename_i s hs
    have ht : s.table = table := by
      cases k with
      | word => exact (mkInvertible_ok (k := .word) (by
          simp only [Scheme.make] at hs; split at hs
          · cases hs
          · exact hs)).1
      | char => exact (mkInvertible_ok (k := .char) (by
          simp only [Scheme.make] at hs; split at hs
          · cases hs
          · exact hs)).1
      | bpe => exact (make_bpe_ok hs).1
      | clasz => exact (mkInvertible_ok (k := .clasz) hs).1
      | byte =>
        have h0 : table.isEmpty = false := by cases table <;> simp_all
        simp only [Scheme.make, h0, Bool.false_eq_true, if_false] at hs
        exact (mkInvertible_ok (k := .byte) hs).1
    exfalso
    cases hm : maxLevel table with
    | none => cases table with
      | nil => exact hne rfl
      | cons t ts => simp only [maxLevel] at hm; split at hm <;> cases hm
    | some m =>
      have hr := writeRows_ok table 0 (fun j t h => by rw [Nat.zero_add]; exact hi j t h)
      simp only [Scheme.save, writeOut, ht, hm, hr] at h
      cases h

theorem indexed_concat {v : List Ty} (h : Indexed v) {t : Ty} (ht : t.idx = v.length) : Indexed (v ++ [t]) := by
  intro i u hu
  by_cases hlt : i < v.length
  · rw [List.getElem?_append_left hlt] at hu; exact h i u hu
  · rw [List.getElem?_append_right (by omega)] at hu
    obtain ⟨h1, h2⟩ := List.getElem?_eq_some_iff.1 hu
    simp only [List.length_singleton] at h1
    have e : i = v.length := by omega
    subst e
    simp only [Nat.sub_self, List.getElem_cons_zero] at h2
    rw [← h2]; exact ht

/-- merging appends types at their own indices, whatever the counts -/
theorem learnLoop_indexed {ord : Nat → List Nat → List Nat} {minEv level : Int} : ∀ {n : Nat} {S S' : LState}, Indexed S.vocab →
    learnLoop ord minEv level n S = .ok S' → Indexed S'.vocab ∧ S.vocab <+: S'.vocab := by
  intro n
  induction n with
  | zero => intro S S' hi h; cases h; exact ⟨hi, List.prefix_rfl⟩
  | succ n ih =>
    intro S S' hi h
    have hstep : ∀ {T : LState} {g : Bool}, learnStep (ord n) minEv level S = .ok (T, g) → Indexed T.vocab ∧ S.vocab <+: T.vocab := by
      intro T g hs
      unfold learnStep at hs
      split at hs
      · cases hs
      · split at hs
        · cases hs; exact ⟨hi, List.prefix_rfl⟩
        · split at hs
          · split at hs
            · cases hs
            · dsimp only at hs
              split at hs
              · cases hs
              · split at hs
                · cases hs
                · split at hs
                  · cases hs
                  · split at hs
                    · cases hs
                    · cases hs
                      exact ⟨indexed_concat hi rfl, List.prefix_append _ _⟩
          · cases hs
    rw [learnLoop] at h
    split at h
    · cases h
    · rename_i T hs
      obtain ⟨h1, h2⟩ := hstep hs
      obtain ⟨h3, h4⟩ := ih h1 h
      exact ⟨h3, h2.trans h4⟩
    · rename_i T hs
      cases h
      exact hstep hs

theorem charFreqs_nodup (tf : Dict Str Int) : (Dict.keys (charFreqs tf)).Nodup := by
  have gen : ∀ (l d : Dict Str Int), (Dict.keys d).Nodup → (Dict.keys (l.foldl (fun d p => p.1.foldl (fun d c => Dict.incr d [c] p.2) d) d)).Nodup := by
    intro l
    induction l with
    | nil => exact fun d h => h
    | cons p l ih =>
      intro d h
      refine ih _ ?_
      have : ∀ (w : Str) (d : Dict Str Int), (Dict.keys d).Nodup → (Dict.keys (w.foldl (fun d c => Dict.incr d [c] p.2) d)).Nodup := by
        intro w
        induction w with
        | nil => exact fun d h => h
        | cons c w ih => exact fun d h => ih _ (Dict.nodup_keys_incr h _ _)
      exact this _ _ h
  exact gen tf [] (by simp [Dict.keys])

theorem readTermFreqs_nodup {J : Json} {lines : List Str} {tf : Dict Str Int} {n : Int} (h : readTermFreqs J lines = .ok (tf, n)) :
    (Dict.keys tf).Nodup := by
  have gen : ∀ (ls : List Str) (d d' : Dict Str Int), (Dict.keys d).Nodup → readFreqRows d ls = .ok d' → (Dict.keys d').Nodup := by
    intro ls
    induction ls with
    | nil => intro d d' h e; cases e; exact h
    | cons l ls ih =>
      intro d d' h e
      rw [readFreqRows] at e
      split at e
      · split at e
        · cases e
        · exact ih _ _ (Dict.nodup_keys_set h _ _) e
      · cases e
  have h0 : (Dict.keys ([] : Dict Str Int)).Nodup := by simp [Dict.keys]
  cases lines with
  | nil => cases h; exact h0
  | cons l ls =>
    simp only [readTermFreqs] at h
    split at h
    · split at h
      · cases h
      · rename_i hr; cases h; exact gen _ _ _ h0 hr
    · split at h
      · cases h
      · rename_i hr; cases h; exact gen _ _ _ h0 hr

/-- tables made by BPE learning have their types at their own indices, for any counts (zero and negative ones included) -/
theorem bpeTf_indexed {ord : Nat → List Nat → List Nat} {A : Acc} {tf : Dict Str Int} {lc vs mf minEv : Int} {cov : Option A.F} {v : List Ty}
    (h : bpeLearnTf ord A tf lc vs mf cov minEv = .ok v) : Indexed v ∧ v ≠ [] := by
  simp only [bpeLearnTf] at h
  generalize (if 1 < minEv ∧ vs ≤ 1 then maxSize else vs) = w at h
  split at h
  · cases h
  · simp only [learnSubwords] at h
    split at h
    · cases h
    · rename_i v0 h0
      have hv0 : Indexed v0 ∧ v0 ≠ [] := by
        obtain ⟨_, _, kept, _, _, _, _, _, rfl⟩ := getInitVocab_ok (charFreqs_nodup _) h0
        refine ⟨indexed_reserved_append _ _ _ _ _, ?_⟩
        intro e
        have := congrArg List.length e
        simp [updateReserved_length] at this
      split at h
      · cases h; exact hv0
      · simp only [learnCodesOf] at h
        split at h
        · cases h
        · split at h
          · cases h
          · split at h
            · cases h
            · simp only [learnCodes] at h
              split at h
              · cases h
              · split at h
                · cases h
                · rename_i S hS
                  cases h
                  obtain ⟨g1, g2⟩ := learnLoop_indexed hv0.1 hS
                  exact ⟨g1, fun e => hv0.2 (List.prefix_nil.1 (e ▸ g2))⟩

/-- a failed `learn` leaves the model file as it was if the class scheme, when asked for, does not learn an empty table -/
theorem failed_kept {J : Json} {ord : Nat → List Nat → List Nat} {A : Acc} {args : MainArgs A.F}
    (ht : args.task = .learn) {model model' : Option Str} {text out : Str} {e : Exc}
    (hlev : args.level = some .clasz → (if args.termFreqs then learnTf J ord A .clasz (inpLines text) args.vocabSize (args.minFreq.getD 0) args.cov
      args.minCoEv else learnVocab ord A .clasz (inpLines text) args.vocabSize (args.minFreq.getD 0) args.cov args.minCoEv) ≠ .ok [])
    (h : mainTask J ord A args model text = (model', out, some e)) : model' = model ∧ out = [] := by
  have hvocab : ∀ {level : Int} {tf : Dict Str Int} {cov : Option A.F} {lc : Option Int} {mf vs : Int} {v : List Ty}, (Dict.keys tf).Nodup →
      getInitVocab A level tf cov lc mf vs = .ok v → Indexed v ∧ v ≠ [] := by
    intro level tf cov lc mf vs v hnd hv
    obtain ⟨_, _, kept, _, _, _, _, _, rfl⟩ := getInitVocab_ok hnd hv
    refine ⟨indexed_reserved_append _ _ _ _ _, ?_⟩
    intro e
    have := congrArg List.length e
    simp [updateReserved_length] at this
  have hbyte : Indexed byteVocab ∧ byteVocab ≠ [] := by
    refine ⟨?_, by simp [byteVocab]⟩
    have : ∀ i < byteVocab.length, (byteVocab[i]?.map (·.idx)) = some i := by decide +kernel
    intro i t ht
    have := this i (List.getElem?_eq_some_iff.1 ht).1
    rw [ht] at this
    simpa using this
  have hgood : ∀ level, args.level = some level → ∀ table, (if args.termFreqs then
        learnTf J ord A level (inpLines text) args.vocabSize (args.minFreq.getD 0) args.cov args.minCoEv
      else learnVocab ord A level (inpLines text) args.vocabSize (args.minFreq.getD 0) args.cov args.minCoEv) = .ok table →
      Indexed table ∧ table ≠ [] := by
    intro level hl table htab
    cases hraw : args.termFreqs with
    | false =>
      simp only [hraw, Bool.false_eq_true, if_false] at htab
      cases level with
      | word =>
        simp only [learnVocab, learnRaw] at htab
        exact hvocab (termFrequencies_nodup .word (inpLines text)) htab
      | char =>
        simp only [learnVocab, learnRaw] at htab
        exact hvocab (termFrequencies_nodup .char (inpLines text)) htab
      | clasz =>
        have h0 := hlev hl
        simp only [hraw, Bool.false_eq_true, if_false] at h0
        obtain ⟨c1, _⟩ := C18_class_vocab (A := A) (vs := args.vocabSize) (mf := 0) (cov := args.cov) htab
        exact ⟨c1, by rintro rfl; exact h0 htab⟩
      | byte =>
        simp only [learnVocab, learnRaw, Except.ok.injEq] at htab
        exact htab ▸ hbyte
      | bpe => exact bpeTf_indexed (by simpa only [learnVocab, bpeLearn] using htab)
      | subword => exact bpeTf_indexed (by simpa only [learnVocab, bpeLearn] using htab)
    | true =>
      simp only [hraw, if_true] at htab
      have hb : ∀ minEv mf : Int, (if ¬ 0 < (if 1 < minEv ∧ args.vocabSize ≤ 1 then maxSize else args.vocabSize) then (.error .assertion : Py (List Ty))
          else match readTermFreqs J (inpLines text) with
            | .error e => .error e
            | .ok (tf, n) => bpeLearnTf ord A tf n args.vocabSize mf args.cov minEv) = .ok table → Indexed table ∧ table ≠ [] := by
        intro minEv mf hb
        generalize (if 1 < minEv ∧ args.vocabSize ≤ 1 then maxSize else args.vocabSize) = w at hb
        split at hb
        · cases hb
        · split at hb
          · cases hb
          · exact bpeTf_indexed hb
      cases level with
      | word =>
        simp only [learnTf, learnFromStats] at htab
        split at htab
        · cases htab
        · rename_i hr; exact hvocab (readTermFreqs_nodup hr) htab
      | char =>
        simp only [learnTf] at htab
        split at htab
        · cases htab
        · rename_i hr; exact hvocab (readTermFreqs_nodup hr) htab
      | clasz =>
        have h0 := hlev hl
        simp only [hraw, if_true] at h0
        refine ⟨?_, by rintro rfl; exact h0 htab⟩
        simp only [learnTf] at htab
        split at htab
        · cases htab
        · cases htab
          intro i t ht
          simp only [classInitVocab, List.getElem?_map, List.getElem?_zipIdx, Option.map_map, Option.map_eq_some_iff] at ht
          obtain ⟨p, _, rfl⟩ := ht
          simp
      | byte =>
        simp only [learnTf, Except.ok.injEq] at htab
        exact htab ▸ hbyte
      | bpe => exact hb _ _ htab
      | subword => exact hb _ _ htab
  simp only [mainTask, ht] at h
  split at h
  · cases h; exact ⟨rfl, rfl⟩
  · rename_i level hl
    split at h
    · cases h; exact ⟨rfl, rfl⟩
    · rename_i table htab
      obtain ⟨g1, g2⟩ := hgood level hl table htab
      simp only [Prod.mk.injEq] at h
      exact ⟨saveModel_indexed J g1 g2 (Prod.ext h.1 h.2.2), h.2.1.symm⟩

theorem inpLines_ne_nil {text : Str} {ls : List Str} (hl : Lines text ls) : inpLines text = [] ↔ ls = [] := by
  have := (inpLines_spec hl).length_eq
  rw [← List.length_eq_zero_iff, ← List.length_eq_zero_iff, this]

theorem rstrip_line {l i : Str} (hb : 10 ∉ l) (h : i = l ∨ i = l ++ [10]) : rstripP (· == 10) i = l := by
  have e : rstripP (· == 10) l = l := rstripP_eq_self fun c hc => by
    have := List.mem_of_getLast? hc
    simp only [beq_eq_false_iff_ne, ne_eq]
    rintro rfl
    exact hb this
  rcases h with rfl | rfl
  · exact e
  · rw [rstripP_append_all (by simp), e]

theorem lines_no_lf {text : Str} {ls : List Str} (h : Lines text ls) : ∀ l ∈ ls, 10 ∉ l := by
  induction h with
  | nil => simp
  | last _ hc => simpa using hc.1
  | lf hc _ ih => intro m hm; rcases List.mem_cons.1 hm with rfl | hm; exacts [hc.1, ih m hm]
  | crlf hc _ ih => intro m hm; rcases List.mem_cons.1 hm with rfl | hm; exacts [hc.1, ih m hm]
  | cr hc _ _ ih => intro m hm; rcases List.mem_cons.1 hm with rfl | hm; exacts [hc.1, ih m hm]

theorem splitOn_length (p : Nat → Bool) (s : Str) : (splitOn p s).length = s.countP p + 1 := by
  induction s with
  | nil => simp [splitOn]
  | cons c r ih =>
    rw [splitOn, List.countP_cons]
    cases hs : splitOn p r with
    | nil => exact absurd hs (splitOn_ne_nil p r)
    | cons w ws =>
      rw [hs] at ih
      by_cases hc : p c = true
      · simp_all
      · simp_all [consHead]

theorem readFreqRows_nil {lines : List Str} : ∀ {d d' : Dict Str Int}, readFreqRows d lines = .ok d' → d' = [] → lines = [] ∧ d = [] := by
  induction lines with
  | nil => intro d d' h e; simp only [readFreqRows, Except.ok.injEq] at h; exact ⟨rfl, h.trans e⟩
  | cons l ls ih =>
    intro d d' h e
    simp only [readFreqRows] at h
    split at h
    · split at h
      · cases h
      · rename_i t f _ n _
        have := (ih h e).2
        exfalso
        cases d with
        | nil => simp [Dict.set] at this
        | cons a d => simp only [Dict.set] at this; split at this <;> cases this
    · cases h

/-- the input has no label: no line, or with `-tfs` at most the header, a line that begins with `#` and has not exactly one tab -/
def Spec.NoLabel (tfs : Bool) (ls : List Str) : Prop :=
  ls = [] ∨ tfs = true ∧ ∃ l, ls = [l] ∧ l.head? = some 35 ∧ l.count 9 ≠ 1

theorem noLabel_iff {J : Json} {ord : Nat → List Nat → List Nat} {A : Acc} {tfs : Bool} {text : Str} {ls : List Str} (hl : Lines text ls)
    (vs mf : Int) (cov : Option A.F) (ev : Int) :
    (if tfs then learnTf J ord A .clasz (inpLines text) vs mf cov ev else learnVocab ord A .clasz (inpLines text) vs mf cov ev) = .ok [] ↔
      Spec.NoLabel tfs ls := by
  cases tfs with
  | false =>
    simp only [Bool.false_eq_true, if_false, Spec.NoLabel, false_and, or_false]
    rw [← inpLines_ne_nil hl]
    constructor
    · intro h
      obtain ⟨_, _, c3, _⟩ := C18_class_vocab (A := A) (vs := vs) (mf := 0) (cov := cov) h
      cases hi : inpLines text with
      | nil => rfl
      | cons l r =>
        have := (c3 (strip l)).2 (by rw [hi]; simp)
        simp [names] at this
    · intro h
      rw [h]
      rfl
  | true =>
    simp only [if_true, Spec.NoLabel, true_and]
    have hspec := inpLines_spec hl
    have hnb := lines_no_lf hl
    generalize inpLines text = is at hspec
    have hcv : ∀ tf, classInitVocab tf = [] ↔ tf = [] := by
      intro tf
      rw [← List.length_eq_zero_iff, ← List.length_eq_zero_iff]
      simp [classInitVocab]
    cases hspec with
    | nil => simp [learnTf, readTermFreqs, classInitVocab]
    | @cons l i ls is h1 h2 =>
      have hr := rstrip_line (hnb l (by simp)) h1
      have hlen : decide ((splitOn (· == 9) l).length ≠ 2) = true ↔ l.count 9 ≠ 1 := by
        rw [splitOn_length, decide_eq_true_iff, List.count]
        omega
      have hst : startsWith [35] l = true ↔ l.head? = some 35 := by
        cases l with
        | nil => constructor <;> intro h <;> cases h
        | cons c r =>
          rw [show startsWith [35] (c :: r) = (35 == c && true) from rfl, Bool.and_true, beq_iff_eq, List.head?_cons, Option.some.injEq]
          exact eq_comm
      simp only [learnTf, readTermFreqs, hr]
      by_cases hc : (startsWith [35] l && decide ((splitOn (· == 9) l).length ≠ 2)) = true
      · rw [if_pos hc]
        rw [Bool.and_eq_true, hst, hlen] at hc
        constructor
        · intro h
          refine .inr ⟨l, ?_, hc⟩
          cases hf : readFreqRows [] is with
          | error e => simp [hf] at h
          | ok d =>
            simp only [hf, Except.ok.injEq, hcv] at h
            obtain ⟨rfl, _⟩ := readFreqRows_nil hf h
            cases h2
            rfl
        · rintro (h | ⟨_, h, _⟩)
          · cases h
          · cases h
            cases h2
            rfl
      · rw [if_neg hc]
        rw [Bool.and_eq_true, hst, hlen] at hc
        constructor
        · intro h
          exfalso
          cases hf : readFreqRows [] (i :: is) with
          | error e => simp [hf] at h
          | ok d =>
            simp only [hf, Except.ok.injEq, hcv] at h
            cases (readFreqRows_nil hf h).1
        · rintro (h | ⟨_, h, h'⟩)
          · cases h
          · cases h
            exact absurd h' hc

/-- C89: for the other schemes a failed `learn` leaves the model file as it was, whether it learns from text or (`-tfs`) from a table of
frequencies, well-formed or not; for the class scheme it does so if the input has a label.  The missing case is `C89_class_refuted`. -/
theorem C89_kept_partial {J : Json} {ord : Nat → List Nat → List Nat} {A : Acc} {args : MainArgs A.F}
    (ht : args.task = .learn) {model model' : Option Str} {text out : Str} {ls : List Str} (hl : Lines text ls) {e : Exc}
    (hlev : args.level = some .clasz → ¬ Spec.NoLabel args.termFreqs ls)
    (h : mainTask J ord A args model text = (model', out, some e)) : model' = model ∧ out = [] :=
  failed_kept ht (fun hc => (noLabel_iff hl _ _ _ _).not.2 (hlev hc)) h

/-- C89, exactly: a failed `learn` changes the model file only by emptying it, and does so just when a class vocabulary is learned from an input
without a label. -/
theorem C89_iff {J : Json} {ord : Nat → List Nat → List Nat} {A : Acc} {args : MainArgs A.F} (ht : args.task = .learn) {m text : Str}
    {ls : List Str} (hl : Lines text ls) (hm : m ≠ []) :
    (∃ model' out e, mainTask J ord A args (some m) text = (model', out, some e) ∧ model' ≠ some m) ↔
      args.level = some .clasz ∧ Spec.NoLabel args.termFreqs ls := by
  constructor
  · rintro ⟨model', out, e, h, hne⟩
    by_contra hn
    exact hne (C89_kept_partial ht hl (fun a b => hn ⟨a, b⟩) h).1
  · rintro ⟨h1, h2⟩
    refine ⟨some [], [], .value, ?_, ?_⟩
    · have := (noLabel_iff (J := J) (ord := ord) (A := A) hl args.vocabSize (args.minFreq.getD 0) args.cov args.minCoEv).2 h2
      simp only [mainTask, ht, h1, this]
      rfl
    · simpa using fun h => hm h

/-- a header alone -/
example : (mainTask pyJson ordId accExact { task := .learn, level := some .clasz, termFreqs := true, cov := none } (some (lit "old")) (lit "#{\"line_count\": 3}\n")) = (some [], [], some .value) := by decide +kernel

/-- a header and a malformed row: the model is kept -/
example : (mainTask pyJson ordId accExact { task := .learn, level := some .clasz, termFreqs := true, cov := none } (some (lit "old")) (lit "#{\"line_count\": 3}\nx\n")) = (some (lit "old"), [], some .value) := by
  decide +kernel

section
variable {J : Json} (hJ : JsonLaws J) {ord : Nat → List Nat → List Nat} {A : Acc} {args : MainArgs A.F} (ht : args.task = .learn)
  (hraw : args.termFreqs = false) (model : Option Str)

include hJ ht hraw

/-- C88 for classes in index mode: a non-empty text whose lines, stripped, have no inner tab or carriage return comes back line by line.  Missing: piece
mode (`C62_class_refuted`). -/
theorem C88_class_partial (hlev : args.level = some .clasz) {text : Str} {ls : List Str} (hl : Lines text ls) (hne : text ≠ [])
    (hp : ∀ l ∈ ls, ∀ c ∈ strip l, Plain c) :
    ∃ m, mainTask J ord A args model text = (some m, [], none) ∧ ∀ enc dec : MainArgs A.F, enc.task = .encode → dec.task = .decode →
      enc.indices = true → dec.indices = true → ∃ out, mainTask J ord A enc (some m) text = (some m, out, none) ∧
        mainTask J ord A dec (some m) out = (some m, ls.flatMap fun l => strip l ++ [10], none) := by
  have h1 := inpLines_spec hl
  have hstrip : ∀ i ∈ inpLines text, ∃ l ∈ ls, strip i = strip l := fun i hi => by
    obtain ⟨l, hl', h⟩ := mem_of_forall₂_right h1 i hi
    exact ⟨l, hl', strip_nl_of h⟩
  have hne' : inpLines text ≠ [] := by
    intro e
    rw [e] at h1
    cases h1
    cases hl
    exact hne rfl
  obtain ⟨v, s, m, g1, g2, g3, g4, g5⟩ := C77_learned_class_partial hJ A (data := inpLines text) (fun i hi => by
    obtain ⟨l, hl', e⟩ := hstrip i hi
    rw [e]; exact hp l hl') hne' args.vocabSize (effMinFreq .clasz (args.minFreq.getD 0)) args.cov
  refine ⟨m, ?_, ?_⟩
  · simp only [mainTask, ht, hlev, hraw, learnVocab, g1, LevelName.kind, saveModel_ok g2 g4, Bool.false_eq_true, if_false]
  · intro enc dec he hd hi hi'
    obtain ⟨out, k1, k2⟩ := C62_class_idx_partial g2 hl (fun l hl' => by
      rw [(C18_class_vocab g1).2.2.1]
      obtain ⟨i, hi, h⟩ := mem_of_forall₂_right h1.flip l hl'
      exact List.mem_map.2 ⟨i, hi, strip_nl_of h⟩)
    refine ⟨out, ?_, ?_⟩
    · simp only [mainTask, he, g5, hi, k1]
    · simp only [mainTask, hd, g5, hi', k2]

/-- C88 is false for bytes: the model is the fixed byte table, and a text whose first line ends with a line break is encoded to something that cannot be
decoded. -/
theorem C88_byte_refuted (hlev : args.level = some .byte) (line : String) (h16 : ∀ c ∈ line.toList, 16 ≤ c.toNat) (rest : Str) :
    ∃ m, mainTask J ord A args model (lit line ++ 10 :: rest) = (some m, [], none) ∧ ∀ enc dec : MainArgs A.F, enc.task = .encode → dec.task = .decode →
      enc.indices = dec.indices → ∃ out e, mainTask J ord A enc (some m) (lit line ++ 10 :: rest) = (some m, out, e) ∧
        mainTask J ord A dec (some m) out = (some m, [], some .value) := by
  obtain ⟨s, m, h1, h2, h3, h4, h5⟩ := byte_persist hJ
  rw [saveTable, h1] at h4
  refine ⟨m, ?_, ?_⟩
  · simp only [mainTask, ht, hlev, hraw, learnVocab, learnRaw, Bool.false_eq_true, if_false, LevelName.kind, saveModel_ok h1 h4]
  · intro enc dec he hd hi
    have h1' : Scheme.make .byte [] = .ok s := by
      rw [← h1]
      have : byteVocab.isEmpty = false := by simp [byteVocab]
      simp only [Scheme.make, this, Bool.false_eq_true, if_false, List.isEmpty_nil, if_true]
    obtain ⟨out, e, g1, g2⟩ := C62_byte_refuted h1' enc.indices line h16 rest
    refine ⟨out, e, ?_, ?_⟩
    · simp only [mainTask, he, h5, g1]
    · simp only [mainTask, hd, h5, ← hi, g2]

end

/-- C77 for the two names of the sub-word level (`'subword'` is known to `learn_vocab` only, not to the command): the model learned is saved and loaded
as a BPE scheme with the same table. -/
theorem C77_subword {J : Json} (hJ : JsonLaws J) {ord : Nat → List Nat → List Nat} (hord : ∀ i l, (ord i l).Perm l) {A : Acc} {data : List Str}
    (hs : Decoded data) {level : LevelName} (hlev : level = .bpe ∨ level = .subword) {vs mf : Int} {cov : Option A.F}
    (hv : ∀ c, cov = some c → A.valid c = true) {ev : Int} {vocab : List Ty} (h : learnVocab ord A level data vs mf cov ev = .ok vocab)
    (model : Option Str) :
    ∃ s text, saveModel J level.kind vocab model = (some text, none) ∧ loadScheme J text = .ok s ∧ s.kind = .bpe ∧ s.table = vocab := by
  have key : ∃ mf' ev', level.kind = .bpe ∧ bpeLearn ord A data vs mf' cov ev' = .ok vocab := by
    rcases hlev with rfl | rfl
    · exact ⟨effMinFreq .bpe mf, ev, rfl, h⟩
    · exact ⟨effMinFreq .subword mf, MIN_CO_EV, rfl, h⟩
  obtain ⟨mf', ev', hk, hb⟩ := key
  obtain ⟨s, text, h1, h2, h3, h4⟩ := C77_learned_bpe hJ hord hs hv hb
  exact ⟨s, text, by rw [hk]; exact saveModel_ok h1 h3 model, h4, (make_bpe_ok h1).2.1, h2⟩

example : (learnVocab ordId accF64 .subword (inpLines (lit "ab ab")) 0 1 none 2).isOk = true := by decide +kernel

/-- learn, encode and decode in one go -/
def pipeline (args : MainArgs Dy) (idx : Bool) (text : Str) : Str × Option Exc :=
  let r := mainTask pyJson ordId accF64 args none text
  let e := mainTask pyJson ordId accF64 { task := .encode, indices := idx, cov := none } r.1 text
  (mainTask pyJson ordId accF64 { task := .decode, indices := idx, cov := none } r.1 e.2.1).2

example : pipeline { task := .learn, level := some .word, cov := some defCoverage } true (lit "b  a\r\n\n a c") = (lit "b a\n\na c\n", none) := by decide +kernel
example : pipeline { task := .learn, level := some .char, minFreq := some 1, cov := some ⟨1, 0⟩ } true (lit "b  a\n a c") = (lit "b a\na c\n", none) := by
  decide +kernel
example : pipeline { task := .learn, level := some .bpe, cov := some ⟨1, 0⟩, minCoEv := 2 } false (lit "aba  ab\n ab a") = (lit "aba ab\nab a\n", none) := by
  decide +kernel
example : pipeline { task := .learn, level := some .bpe, cov := some ⟨1, 0⟩, minCoEv := 2 } true (lit "aba  ab\n ab a") = (lit "aba ab\nab a\n", none) := by
  decide +kernel
example : pipeline { task := .learn, level := some .clasz, cov := some ⟨1, 0⟩ } true (lit "New York\n Rome \n") = (lit "New York\nRome\n", none) := by
  decide +kernel
example : Dy.val ⟨1, 0⟩ = 1 := by rw [Dy.val_eq]; norm_num
example : accF64.valid defCoverage = true := by decide

end Verif
