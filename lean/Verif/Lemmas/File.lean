import Verif.Model.File
import Verif.Lemmas.Learn
import Verif.Lemmas.Scheme
import Verif.Spec.Table
/-! # Lemmas on text files -/

namespace Verif
open Spec

/-- Headers that are written: at least one entry, and the scheme name, if any, is a lower-case word. -/
def Header.Plain (h : Header) : Prop := h.any = true ∧ ∀ n, h.scheme = some n → ∀ c ∈ n, 97 ≤ c ∧ c ≤ 122

/-- What is assumed of `json.dumps` and `json.loads`: an object is printed in braces with printable ASCII characters only
(`ensure_ascii`), and reading restores the entries.  `Verif.pyJson_laws` shows a codec with these laws. -/
structure JsonLaws (J : Json) : Prop where
  round : ∀ h, h.Plain → J.loads (J.dumps h) = .ok h
  shape : ∀ h, h.Plain → ∃ body, J.dumps h = 123 :: body ++ [125]
  ascii : ∀ h, h.Plain → ∀ c ∈ J.dumps h, 32 ≤ c ∧ c ≤ 126

theorem univNewlines_id {s : Str} (h : 13 ∉ s) : univNewlines s = s := by
  induction s with
  | nil => rfl
  | cons c s ih =>
    simp only [List.mem_cons, not_or] at h
    unfold univNewlines
    split
    · rename_i heq; injection heq with a _; exact absurd a.symm h.1
    · rename_i heq; injection heq with a _; exact absurd a.symm h.1
    · rename_i heq; injection heq with a b; subst a; subst b; rw [ih h.2]
    · rename_i heq; cases heq

theorem splitOn_rows (ls : List Str) (h : ∀ l ∈ ls, 10 ∉ l) :
    splitOn (· == 10) (ls.flatMap (· ++ [10])) = ls ++ [[]] := by
  induction ls with
  | nil => rfl
  | cons l ls ih =>
    rw [List.flatMap_cons, List.append_assoc, List.singleton_append]
    rw [splitOn_append_sep (p := (· == 10)) (c := 10) _ (by simp)]
    · rw [ih (fun l hl => h l (by simp [hl]))]; rfl
    · intro c hc
      have := h l (by simp)
      simp only [beq_eq_false_iff_ne]
      intro e; subst e; exact this hc

theorem fileLines_rows (ls : List Str) (h : ∀ l ∈ ls, 10 ∉ l) : fileLines (ls.flatMap (· ++ [10])) = ls := by
  simp [fileLines, splitOn_rows ls h]

theorem dropSurrogates_id {s : Str} (h : ∀ c ∈ s, isSurrogate c = false) : dropSurrogates s = s := by
  rw [dropSurrogates, List.filter_eq_self]
  intro c hc; simp [h c hc]

theorem maxLevel_ne_none {t : List Ty} (h : t ≠ []) : ∃ m, maxLevel t = some m := by
  cases t with
  | nil => exact absurd rfl h
  | cons t ts => simp only [maxLevel]; split <;> exact ⟨_, rfl⟩

theorem writeRows_ok (tbl : List Ty) (i : Nat) (h : ∀ j t, tbl[j]? = some t → t.idx = i + j) :
    writeRows tbl i = .ok (tbl.flatMap fun t => t.format ++ [10]) := by
  induction tbl generalizing i with
  | nil => rfl
  | cons t ts ih =>
    have h0 := h 0 t (by simp)
    have := ih (i + 1) (fun j u hj => by have := h (j + 1) u (by simpa using hj); omega)
    simp only [writeRows, this]
    rw [if_pos (by omega)]
    simp

theorem writeRows_error (tbl : List Ty) (i : Nat) (h : ∃ j t, tbl[j]? = some t ∧ t.idx ≠ i + j) :
    writeRows tbl i = .error .assertion := by
  induction tbl generalizing i with
  | nil => obtain ⟨j, t, hj, _⟩ := h; simp at hj
  | cons t ts ih =>
    by_cases ht : i = t.idx
    · obtain ⟨j, u, hj, hu⟩ := h
      have : writeRows ts (i + 1) = .error .assertion := by
        cases j with
        | zero => simp at hj; subst hj; omega
        | succ j => exact ih (i + 1) ⟨j, u, by simpa using hj, by omega⟩
      simp only [writeRows, this]
      rw [if_pos ht]
    · simp only [writeRows]; rw [if_neg ht]

/-! ## rows -/

theorem natStr_chars (n : Nat) : ∀ c ∈ natStr n, 33 ≤ c ∧ c ≤ 126 := by
  intro c hc; have := natStr_digits n c hc; omega

theorem natStr_isToken (n : Nat) : IsToken (natStr n) :=
  isToken_iff.2 ⟨natStr_ne_nil n, fun c hc => isSpace_lo (natStr_chars n c hc).1 (natStr_chars n c hc).2⟩

theorem intStr_nat (n : Nat) : intStr (n : Int) = natStr n := by
  simp [intStr]

theorem pyInt_natStr (n : Nat) : pyInt (natStr n) = .ok (n : Int) := by
  rw [← intStr_nat]; exact pyInt_intStr _

/-- column of the kids -/
theorem kidCol_chars (ks : List Ty) : ∀ c ∈ join [32] (ks.map fun k => natStr k.idx), 32 ≤ c ∧ c ≤ 126 := by
  induction ks with
  | nil => simp [join]
  | cons k ks ih =>
    cases ks with
    | nil => intro c hc; have := natStr_chars _ c hc; omega
    | cons k' ks =>
      intro c hc
      simp only [List.map_cons, join, List.append_assoc, List.mem_append, List.mem_singleton] at hc
      rcases hc with hc | rfl | hc
      · have := natStr_chars _ c hc; omega
      · omega
      · exact ih c (by simpa using hc)

theorem kidCol_last (ks : List Ty) (hne : ks ≠ []) : ∃ c, (join [32] (ks.map fun k => natStr k.idx)).getLast? = some c ∧ isSpace c = false := by
  induction ks with
  | nil => exact absurd rfl hne
  | cons k ks ih =>
    cases ks with
    | nil =>
      have hn := natStr_ne_nil k.idx
      refine ⟨(natStr k.idx).getLast hn, List.getLast?_eq_getLast_of_ne_nil hn, ?_⟩
      exact (isToken_iff.1 (natStr_isToken k.idx)).2 _ (List.getLast_mem hn)
    | cons k' ks =>
      obtain ⟨c, hc, hs⟩ := ih (by simp)
      refine ⟨c, ?_, hs⟩
      simp only [List.map_cons, join] at hc ⊢
      rw [List.getLast?_append, hc]
      rfl

/-- the name can be stored in a row -/
def NameOK (n : Str) : Prop := ∀ c ∈ n, c ≠ 9 ∧ c ≠ 10 ∧ c ≠ 13 ∧ isSurrogate c = false

theorem format_eq (t : Ty) : t.format = natStr t.idx ++ 9 :: (t.name ++ 9 :: (intStr t.level ++ 9 :: (intStr t.freq ++ 9 ::
    join [32] (t.kids.map fun k => natStr k.idx)))) := by
  simp [Ty.format, join]

theorem format_chars {t : Ty} (h : NameOK t.name) : ∀ c ∈ t.format, c ≠ 10 ∧ c ≠ 13 ∧ isSurrogate c = false := by
  have small : ∀ c, c ≤ 126 → isSurrogate c = false := by
    intro c hc; simp only [isSurrogate, decide_eq_false_iff_not]; omega
  intro c hc
  rw [format_eq] at hc
  simp only [List.mem_append, List.mem_cons] at hc
  rcases hc with hc | rfl | hc | rfl | hc | rfl | hc | rfl | hc
  · have := natStr_chars _ c hc; exact ⟨by omega, by omega, small c this.2⟩
  · exact ⟨by omega, by omega, small _ (by omega)⟩
  · exact ⟨(h c hc).2.1, (h c hc).2.2.1, (h c hc).2.2.2⟩
  · exact ⟨by omega, by omega, small _ (by omega)⟩
  · have := intStr_chars _ c hc; exact ⟨by omega, by omega, small c this.2⟩
  · exact ⟨by omega, by omega, small _ (by omega)⟩
  · have := intStr_chars _ c hc; exact ⟨by omega, by omega, small c this.2⟩
  · exact ⟨by omega, by omega, small _ (by omega)⟩
  · have := kidCol_chars _ c hc; exact ⟨by omega, by omega, small c this.2⟩

theorem head_natStr_append (n : Nat) (r : Str) (c : Nat) (h : (natStr n ++ r).head? = some c) : isSpace c = false := by
  cases hn : natStr n with
  | nil => exact absurd hn (natStr_ne_nil n)
  | cons d ds =>
    rw [hn] at h
    simp only [List.cons_append, List.head?_cons, Option.some.injEq] at h
    subst h
    exact (isToken_iff.1 (natStr_isToken n)).2 _ (by simp [hn])

theorem getLast_intStr (i : Int) (c : Nat) (h : (intStr i).getLast? = some c) : isSpace c = false :=
  (isToken_iff.1 (intStr_isToken i)).2 c (List.mem_of_getLast? h)

/-- the columns of a stripped row -/
theorem splitOn_strip_format {t : Ty} (h : 9 ∉ t.name) :
    splitOn (· == 9) (strip t.format) = [natStr t.idx, t.name, intStr t.level, intStr t.freq] ++
      (if t.kids = [] then [] else [join [32] (t.kids.map fun k => natStr k.idx)]) := by
  have clean : ∀ s : Str, (∀ c ∈ s, 32 ≤ c ∧ c ≤ 126) → ∀ c ∈ s, (c == 9) = false := by
    intro s hs c hc; have := hs c hc; simp; omega
  have cn : ∀ c ∈ t.name, (c == 9) = false := by
    intro c hc; simp only [beq_eq_false_iff_ne]; intro e; subst e; exact h hc
  have n1 := clean (natStr t.idx) (fun c hc => by have := natStr_chars _ c hc; omega)
  have n2 := clean (intStr t.level) (fun c hc => by have := intStr_chars _ c hc; omega)
  have n3 := clean (intStr t.freq) (fun c hc => by have := intStr_chars _ c hc; omega)
  by_cases hk : t.kids = []
  · have hs : strip t.format = natStr t.idx ++ 9 :: (t.name ++ 9 :: (intStr t.level ++ 9 :: intStr t.freq)) := by
      have := strip_of_decomp (g := []) (h := [9])
        (s := natStr t.idx ++ 9 :: (t.name ++ 9 :: (intStr t.level ++ 9 :: intStr t.freq)))
        (by intro c hc; simp at hc) (by intro c hc; simp at hc; subst hc; decide)
        (head_natStr_append _ _) (by
          intro c hc
          apply getLast_intStr t.freq c
          have hne := intStr_ne_nil t.freq
          cases hf : intStr t.freq with
          | nil => exact absurd hf hne
          | cons d ds =>
            rw [hf] at hc
            simp only [List.getLast?_append, List.getLast?_cons] at hc ⊢
            simpa using hc)
      rw [format_eq, hk]
      simpa [join] using this
    rw [hs, if_pos hk]
    rw [splitOn_append_sep n1 (by simp), splitOn_append_sep cn (by simp), splitOn_append_sep n2 (by simp), splitOn_clean n3]
    rfl
  · have n4 := clean _ (kidCol_chars t.kids)
    have hs : strip t.format = t.format := by
      apply strip_eq_self
      · rw [format_eq]; exact head_natStr_append _ _
      · intro c hc
        obtain ⟨d, hd, hsd⟩ := kidCol_last t.kids hk
        rw [format_eq] at hc
        have : (natStr t.idx ++ 9 :: (t.name ++ 9 :: (intStr t.level ++ 9 :: (intStr t.freq ++ 9 ::
            join [32] (t.kids.map fun k => natStr k.idx))))).getLast? = some d := by
          have e : natStr t.idx ++ 9 :: (t.name ++ 9 :: (intStr t.level ++ 9 :: (intStr t.freq ++ 9 ::
            join [32] (t.kids.map fun k => natStr k.idx)))) = (natStr t.idx ++ 9 :: (t.name ++ 9 :: (intStr t.level ++ 9 :: (intStr t.freq ++ [9])))) ++
            join [32] (t.kids.map fun k => natStr k.idx) := by simp
          rw [e, List.getLast?_append, hd]; rfl
        rw [this] at hc
        cases hc; exact hsd
    rw [hs, if_neg hk, format_eq]
    rw [splitOn_append_sep n1 (by simp), splitOn_append_sep cn (by simp), splitOn_append_sep n2 (by simp),
      splitOn_append_sep n3 (by simp), splitOn_clean n4]
    rfl

theorem pyInts_natStr (ks : List Ty) : pyInts (ks.map fun k => natStr k.idx) = .ok (ks.map fun k => (k.idx : Int)) := by
  induction ks with
  | nil => rfl
  | cons k ks ih => simp [pyInts, pyInt_natStr, ih]

theorem lookupKids_ok {vocab : List (Option Ty)} (ks : List Ty) (h : ∀ k ∈ ks, vocab[k.idx]? = some (some k)) :
    lookupKids vocab (ks.map fun k => (k.idx : Int)) = .ok (ks.map some) := by
  induction ks with
  | nil => rfl
  | cons k ks ih =>
    simp [lookupKids, pyIndex_some (h k (by simp)), ih (fun k' hk' => h k' (by simp [hk']))]

theorem parseType_format {t : Ty} {vocab : List (Option Ty)} (hn : 9 ∉ t.name)
    (hk : ∀ k ∈ t.kids, k.idx < t.idx ∧ vocab[k.idx]? = some (some k)) :
    parseType vocab (strip t.format) = .ok ⟨t.name, t.level, t.idx, t.freq, t.kids.map some⟩ := by
  have hs := splitOn_strip_format hn
  unfold parseType
  rw [strip_strip, hs]
  by_cases hkk : t.kids = []
  · simp [hkk, pyInt_natStr, pyInt_intStr]
  · rw [if_neg hkk]
    have hne : (join [32] (t.kids.map fun k => natStr k.idx)).isEmpty = false := by
      obtain ⟨c, hc, _⟩ := kidCol_last t.kids hkk
      cases hj : join [32] (t.kids.map fun k => natStr k.idx) with
      | nil => rw [hj] at hc; simp at hc
      | cons => rfl
    have hsp : split (join [32] (t.kids.map fun k => natStr k.idx)) = t.kids.map fun k => natStr k.idx := by
      apply split_join_space
      intro w hw
      obtain ⟨k, _, rfl⟩ := List.mem_map.1 hw
      exact natStr_isToken _
    have hall : ((t.kids.map fun k => (k.idx : Int)).all fun k => decide (k < (t.idx : Int) ∧ k < (vocab.length : Int))) = true := by
      rw [List.all_map, List.all_eq_true]
      intro k hkm
      obtain ⟨h1, h2⟩ := hk k hkm
      have := (List.getElem?_eq_some_iff.1 h2).1
      simp only [Function.comp, decide_eq_true_eq]; omega
    have hl := lookupKids_ok t.kids (fun k hkm => (hk k hkm).2)
    simp only [List.cons_append, List.nil_append, pyInt_natStr, pyInt_intStr, hne, hsp, pyInts_natStr, hall, hl,
      Bool.false_eq_true, if_false, if_true]

theorem allKids_some (ks : List Ty) : allKids (ks.map some) = some ks := by
  induction ks with
  | nil => rfl
  | cons k ks ih => simp [allKids, ih]

/-- reading the rows of a well-formed table -/
theorem readTypes_format (tbl : List Ty) (hi : Indexed tbl) (hke : KidsEarlier tbl) (hn : ∀ t ∈ tbl, 9 ∉ t.name) (n : Nat) :
    ∀ (rest done : List Ty), tbl = done ++ rest →
      readTypes n done (rest.map fun t => strip t.format) = .ok tbl := by
  intro rest
  induction rest with
  | nil => intro done h; simp [readTypes, h]
  | cons t rest ih =>
    intro done h
    have hget : tbl[done.length]? = some t := by rw [h]; simp
    have hidx : t.idx = done.length := hi _ _ hget
    have hp := parseType_format (t := t) (vocab := done.map some ++ List.replicate (n - done.length) none)
      (hn t (List.mem_of_getElem? hget)) (by
        intro k hk
        obtain ⟨j, hj, hjt⟩ := hke _ _ hget k hk
        have hkj : k.idx = j := hi _ _ hjt
        refine ⟨by omega, ?_⟩
        rw [hkj, List.getElem?_append_left (by simpa using hj), List.getElem?_map]
        rw [h, List.getElem?_append_left hj] at hjt
        rw [hjt]; rfl)
    simp only [List.map_cons, readTypes, hp, hidx, if_true, allKids_some]
    have ht : (⟨t.name, t.level, done.length, t.freq, t.kids⟩ : Ty) = t := by rw [← hidx]; cases t; rfl
    rw [ht]
    exact ih (done ++ [t]) (by rw [h]; simp)

/-! ## reading arbitrary files -/

theorem allKids_mem {ks : List (Option Ty)} {us : List Ty} (h : allKids ks = some us) : ks = us.map some := by
  induction ks generalizing us with
  | nil => simp [allKids] at h; subst h; rfl
  | cons k ks ih =>
    cases k with
    | none => simp [allKids] at h
    | some t =>
      simp only [allKids] at h
      cases ha : allKids ks with
      | none => simp [ha] at h
      | some vs => simp only [ha, Option.some.injEq] at h; subst h; simp [ih ha]

theorem lookupKids_mem {vocab : List (Option Ty)} {ks : List Int} {ts : List (Option Ty)} (h : lookupKids vocab ks = .ok ts) :
    ∀ t ∈ ts, t ∈ vocab := by
  induction ks generalizing ts with
  | nil => simp [lookupKids] at h; subst h; simp
  | cons k ks ih =>
    simp only [lookupKids] at h
    cases h1 : pyIndex vocab k with
    | error e => simp [h1] at h
    | ok t =>
      cases h2 : lookupKids vocab ks with
      | error e => simp [h1, h2] at h
      | ok us =>
        simp only [h1, h2, Except.ok.injEq] at h
        subst h
        intro x hx
        rcases List.mem_cons.1 hx with rfl | hx
        · exact pyIndex_mem h1
        · exact ih h2 x hx

theorem parseType_kids {vocab : List (Option Ty)} {line : Str} {r : RawTy} (h : parseType vocab line = .ok r) :
    ∀ k ∈ r.kids, k ∈ vocab := by
  unfold parseType at h
  split at h
  · rename_i c0 c1 c2 c3 more _
    cases h0 : pyInt c0 with
    | error e => simp [h0] at h
    | ok i =>
      cases h2 : pyInt c2 with
      | error e => simp [h0, h2] at h
      | ok l =>
        cases h3 : pyInt c3 with
        | error e => simp [h0, h2, h3] at h
        | ok f =>
          simp only [h0, h2, h3] at h
          split at h
          · cases h; simp
          · rename_i c4 _ _
            by_cases hc : c4.isEmpty = true
            · rw [if_pos hc] at h; cases h; simp
            · rw [if_neg hc] at h
              cases h4 : pyInts (split c4) with
              | error e => simp [h4] at h
              | ok ks =>
                simp only [h4] at h
                split at h
                · cases h5 : lookupKids vocab ks with
                  | error e => simp [h5] at h
                  | ok ts => simp only [h5, Except.ok.injEq] at h; subst h; exact lookupKids_mem h5
                · cases h
  · cases h

theorem readTypes_wf (n : Nat) : ∀ (lines : List Str) (done t : List Ty), readTypes n done lines = .ok t →
    Indexed done → KidsEarlier done → Indexed t ∧ KidsEarlier t ∧ t.length = done.length + lines.length := by
  intro lines
  induction lines with
  | nil => intro done t h h1 h2; simp [readTypes] at h; subst h; exact ⟨h1, h2, by simp⟩
  | cons line lines ih =>
    intro done t h h1 h2
    simp only [readTypes] at h
    cases hp : parseType (done.map some ++ List.replicate (n - done.length) none) line with
    | error e => simp [hp] at h
    | ok r =>
      simp only [hp] at h
      split at h
      · cases hk : allKids r.kids with
        | none => simp [hk] at h
        | some kids =>
          simp only [hk] at h
          have hkid : ∀ k ∈ kids, k ∈ done := by
            intro k hkm
            have := parseType_kids hp (some k) (by rw [allKids_mem hk]; exact List.mem_map.2 ⟨k, hkm, rfl⟩)
            rcases List.mem_append.1 this with hm | hm
            · obtain ⟨k', hk', e⟩ := List.mem_map.1 hm
              cases e; exact hk'
            · have := List.eq_of_mem_replicate hm; cases this
          obtain ⟨a, b, c⟩ := ih _ t h (by
            intro i u hu
            by_cases hi : i < done.length
            · rw [List.getElem?_append_left hi] at hu; exact h1 i u hu
            · rw [List.getElem?_append_right (by omega)] at hu
              obtain ⟨hl, he⟩ := List.getElem?_eq_some_iff.1 hu
              simp at hl
              have : i = done.length := by omega
              subst this
              simp at he; subst he; rfl) (by
            intro i u hu k hkm
            by_cases hi : i < done.length
            · rw [List.getElem?_append_left hi] at hu
              obtain ⟨j, hj, hjk⟩ := h2 i u hu k hkm
              exact ⟨j, hj, by rw [List.getElem?_append_left (by omega)]; exact hjk⟩
            · rw [List.getElem?_append_right (by omega)] at hu
              obtain ⟨hl, he⟩ := List.getElem?_eq_some_iff.1 hu
              simp at hl
              have hid : i = done.length := by omega
              subst hid
              simp at he; subst he
              obtain ⟨j, hj⟩ := List.mem_iff_getElem?.1 (hkid k hkm)
              have hlt := (List.getElem?_eq_some_iff.1 hj).1
              exact ⟨j, hlt, by rw [List.getElem?_append_left hlt]; exact hj⟩)
          refine ⟨a, b, ?_⟩
          rw [c]; simp; omega
      · cases h

/-! ## frequency files -/

theorem statRows_eq (l : List (Str × Int)) : statRows l = (l.map fun p => p.1 ++ 9 :: intStr p.2).flatMap (· ++ [10]) := by
  induction l with
  | nil => rfl
  | cons p l ih => obtain ⟨t, f⟩ := p; simp [statRows, ih]

theorem rstripNL_id {s : Str} (h : 10 ∉ s) : rstripP (· == 10) s = s := by
  apply rstripP_eq_self
  intro c hc
  simp only [beq_eq_false_iff_ne]
  intro e; subst e; exact h (List.mem_of_getLast? hc)

/-- term that can be stored in a frequency file -/
def TermOK (t : Str) : Prop := 9 ∉ t ∧ 10 ∉ t ∧ strip t = t

theorem readFreqRows_ok : ∀ (l : List (Str × Int)) (d : Dict Str Int), (∀ p ∈ l, TermOK p.1) → ((d ++ l).map (·.1)).Nodup →
    readFreqRows d (l.map fun p => p.1 ++ 9 :: intStr p.2) = .ok (d ++ l) := by
  intro l
  induction l with
  | nil => intro d _ _; simp [readFreqRows]
  | cons p l ih =>
    intro d h hnd
    obtain ⟨t, f⟩ := p
    obtain ⟨h1, h2, h3⟩ := h (t, f) (by simp)
    have hcol : ∀ c ∈ t, (c == 9) = false := by
      intro c hc; simp only [beq_eq_false_iff_ne]; intro e; subst e; exact h1 hc
    have hcol2 : ∀ c ∈ intStr f, (c == 9) = false := by
      intro c hc; have := intStr_chars f c hc; simp; omega
    have hnl : (10 : Nat) ∉ t ++ 9 :: intStr f := by
      simp only [List.mem_append, List.mem_cons, not_or]
      refine ⟨h2, by omega, fun hc => ?_⟩
      have := intStr_chars f 10 hc; omega
    have hnew : t ∉ Dict.keys d := by
      rw [List.map_append, List.nodup_append] at hnd
      intro hm; exact hnd.2.2 t hm t (by simp) rfl
    simp only [List.map_cons, readFreqRows, rstripNL_id hnl]
    rw [splitOn_append_sep hcol (by simp), splitOn_clean hcol2]
    simp only [pyInt_intStr, h3, set_append_new hnew]
    rw [ih (d ++ [(t, f)]) (fun p hp => h p (by simp [hp])) (by simpa using hnd)]
    simp

end Verif
