import Verif.Lemmas.VocabFile
import Verif.Props.FreqCli
/-!
# Property C107: exactly which files and lines are accepted

`Spec.IntText` (Verif/Spec/Number.lean) says which texts denote numbers, `Spec.Row` and `Spec.FreqRow` (Verif/Spec/VocabFile.lean) which lines are
rows of a vocabulary or of a frequency file.
-/

namespace Verif
open Spec

/-- C107, vocabulary files: reading a text with the lines `ls` gives the table `tbl` exactly if the lines are its rows, after a first line that begins
with `#{` and holds the header, or without such a line. -/
theorem C107_read (J : Json) {text : Str} {ls : List Str} (hl : Lines text ls) (tbl : List Ty) (h : Option Header) :
    readVocab J text = .ok (tbl, h) ↔
      (∃ l0 rest s hd, ls = l0 :: rest ∧ Trimmed l0 (35 :: 123 :: s) ∧ J.loads (123 :: s) = .ok hd ∧ h = some hd ∧ RowsOf rest tbl) ∨
      (∃ l0 rest, ls = l0 :: rest ∧ (∀ s, ¬ Trimmed l0 (35 :: 123 :: s)) ∧ h = none ∧ RowsOf ls tbl) := by
  have hs : (fileLines (univNewlines text)) = ls := sparkRows_spec hl
  have hrows : ∀ {ms : List Str}, RowsOf (ms.map strip) tbl ↔ RowsOf ms tbl := by
    intro ms
    have hrow : ∀ n done l t, Row n done (strip l) t ↔ Row n done l t := by
      intro n done l t
      have : ∀ s, Trimmed (strip l) s ↔ Trimmed l s := fun s => by rw [trimmed_iff, trimmed_iff, strip_strip]
      simp only [Row, this]
    unfold RowsOf
    simp only [List.length_map, List.getElem?_map, Option.map_eq_some_iff, forall_exists_index, and_imp]
    refine and_congr_right fun _ => ?_
    constructor
    · exact fun H i l t h1 h2 => (hrow _ _ _ _).1 (H i _ t l h1 rfl h2)
    · rintro H i _ t l h1 rfl h2
      exact (hrow _ _ _ _).2 (H i l t h1 h2)
  rw [readVocab, hs]
  cases ls with
  | nil =>
    simp
  | cons l0 rest =>
    simp only [List.map_cons]
    by_cases hh : startsWith [35, 123] (strip l0) = true
    · rw [if_pos hh]
      obtain ⟨s, hs0⟩ : ∃ s, strip l0 = 35 :: 123 :: s := by
        rw [startsWith, List.isPrefixOf_iff_prefix] at hh
        obtain ⟨s, e⟩ := hh
        exact ⟨s, e.symm⟩
      have hno : ¬ ∀ s, ¬ Trimmed l0 (35 :: 123 :: s) := fun H => H s (trimmed_iff.2 hs0)
      rw [hs0]
      simp only [List.drop_succ_cons, List.drop_zero]
      constructor
      · intro H
        left
        cases hj : J.loads (123 :: s) with
        | error e => rw [hj] at H; cases H
        | ok hd =>
          rw [hj] at H
          dsimp only at H
          cases hr : readTypes (rest.map strip).length [] (rest.map strip) with
          | error e => rw [hr] at H; cases H
          | ok t =>
            rw [hr] at H
            cases H
            exact ⟨l0, rest, s, hd, rfl, trimmed_iff.2 hs0, hj, rfl, hrows.1 (rows_iff.1 hr)⟩
      · rintro (⟨l, r, s', hd, e, h1, h2, rfl, h4⟩ | ⟨l, r, e, h1, _⟩)
        · cases e
          rw [trimmed_iff, hs0] at h1
          cases h1
          rw [h2]
          dsimp only
          rw [rows_iff.2 (hrows.2 h4)]
        · cases e
          exact absurd h1 hno
    · rw [if_neg hh]
      have hno : ∀ s, ¬ Trimmed l0 (35 :: 123 :: s) := fun s h1 => hh (by rw [trimmed_iff.1 h1]; rfl)
      constructor
      · intro H
        right
        cases hr : readTypes (strip l0 :: rest.map strip).length [] (strip l0 :: rest.map strip) with
        | error e => rw [hr] at H; cases H
        | ok t =>
          rw [hr] at H
          cases H
          exact ⟨l0, rest, rfl, hno, rfl, hrows.1 (rows_iff.1 hr)⟩
      · rintro (⟨l, r, s', hd, e, h1, _⟩ | ⟨l, r, e, _, rfl, h4⟩)
        · cases e
          exact absurd h1 (hno s')
        · have := rows_iff.2 (hrows.2 h4)
          rw [List.map_cons] at this
          rw [this]

/-- C107, a line of indices: it is decoded exactly if all its tokens denote numbers, and then as these numbers are; otherwise it is a ValueError. -/
theorem C107_decode (s : Scheme) {line : Str} {ws : List Str} (h : Tokens line ws) :
    (∀ is, List.Forall₂ IntText ws is → decodeLine s true line = s.decode is) ∧
    ((¬ ∃ is, List.Forall₂ IntText ws is) → decodeLine s true line = .error .value) := by
  have hs := split_of_tokens h
  constructor
  · intro is hi
    simp only [decodeLine, if_true, hs, pyInts_iff.2 hi]
  · intro hn
    rcases pyInts_cases ws with ⟨is, hi, _⟩ | he
    · exact absurd ⟨is, hi⟩ hn
    · simp only [decodeLine, if_true, hs, he]

/-- the lines of a frequency file after the header; a first line with `#` at its beginning is a header unless it has exactly one tab -/
def Spec.FreqBody (lines body : List Str) : Prop :=
  (∃ l0, lines = l0 :: body ∧ l0.head? = some 35 ∧ l0.count 9 ≠ 1) ∨
  (body = lines ∧ ∀ l0, lines.head? = some l0 → ¬ (l0.head? = some 35 ∧ l0.count 9 ≠ 1))

theorem splitOn_count (c : Nat) (s : Str) : (splitOn (· == c) s).length = s.count c + 1 := by
  induction s with
  | nil => rfl
  | cons d s ih =>
    rw [splitOn]
    split
    · rename_i h
      have : d = c := by simpa using h
      subst this
      simp [ih]
    · rename_i h
      have : d ≠ c := by simpa using h
      rw [List.count_cons_of_ne this, ← ih]
      obtain ⟨w, ws, hw⟩ := List.exists_cons_of_ne_nil (splitOn_ne_nil (· == c) s)
      rw [hw]; rfl

theorem rstripP_append {p : Nat → Bool} {x y : Str} (h : rstripP p y ≠ []) : rstripP p (x ++ y) = x ++ rstripP p y := by
  obtain ⟨g, h1, h2⟩ := rstripP_suffix p y
  have hl := fun c => rstripP_last (p := p) (s := y) c
  generalize rstripP p y = r at *
  subst h1
  rw [← List.append_assoc, rstripP_append_all h2]
  refine rstripP_eq_self fun c hc => hl c ?_
  rwa [List.getLast?_append_of_ne_nil _ h] at hc

theorem freqRow_iff {line : Str} {p : Str × Int} : FreqRow line p ↔
    ∃ t f, splitOn (· == 9) (rstripP (· == 10) line) = [t, f] ∧ strip t = p.1 ∧ pyInt f = .ok p.2 := by
  have hnl : ∀ {g : Str}, (∀ c ∈ g, (c == 10) = true) → NumSpace g := by
    intro g hg c hc
    have : c = 10 := by simpa using hg c hc
    subst this
    decide
  constructor
  · rintro ⟨t, f, rfl, h1, h2, h3, a, sign, body, b, n, rfl, ha, hb, hn, hs⟩
    have hv := uintVal_number.2 hn
    have hc := uintVal_chars _ _ _ _ hv
    have hne : body ≠ [] := by rintro rfl; simp [uintVal] at hv
    have hbody : ∀ x, rstripP (· == 10) (x ++ body) = x ++ body := fun x => rstripP_eq_self fun c h => by
      rw [List.getLast?_append_of_ne_nil _ hne] at h
      have := (hc c (List.mem_of_getLast? h)).2.2
      simp only [beq_eq_false_iff_ne, ne_eq]
      rintro rfl
      revert this; decide
    have hf : ∀ x : Str, ∃ b', rstripP (· == 10) (x ++ body ++ b) = x ++ body ++ b' ∧ NumSpace b' ∧ ∀ c ∈ b', c ∈ b := by
      intro x
      by_cases hb' : rstripP (· == 10) b = []
      · obtain ⟨g, g1, g2⟩ := rstripP_suffix (· == 10) b
        rw [hb', List.nil_append] at g1
        exact ⟨[], by rw [g1, rstripP_append_all g2, hbody, List.append_nil], by intro c hc; simp at hc, by simp⟩
      · obtain ⟨g, g1, g2⟩ := rstripP_suffix (· == 10) b
        have hsub : ∀ c ∈ rstripP (· == 10) b, c ∈ b := fun c hc => by rw [g1]; exact List.mem_append_left _ hc
        exact ⟨rstripP (· == 10) b, rstripP_append hb', fun c hc => hb c (hsub c hc), hsub⟩
    obtain ⟨b', e1, e2, e3⟩ := hf (t ++ 9 :: (a ++ sign))
    refine ⟨t, a ++ sign ++ body ++ b', ?_, trimmed_iff.1 h3, pyInt_iff.2 ⟨a, sign, body, b', n, rfl, ha, e2, hn, hs⟩⟩
    have : t ++ 9 :: (a ++ sign ++ body ++ b) = t ++ 9 :: (a ++ sign) ++ body ++ b := by simp
    rw [this, e1]
    refine (columns_iff (c := 9) (by simp)).2 ⟨by simp [List.intercalate], ?_⟩
    intro w hw
    simp only [List.mem_cons, List.not_mem_nil, or_false] at hw
    rcases hw with rfl | rfl
    · exact h1
    · simp only [List.mem_append, not_or] at h2 ⊢
      exact ⟨h2.1, fun h => h2.2 (e3 9 h)⟩
  · rintro ⟨t, f, h1, h2, h3⟩
    obtain ⟨h4, h5⟩ := (columns_iff (c := 9) (by simp)).1 h1
    obtain ⟨g, g1, g2⟩ := rstripP_suffix (· == 10) line
    obtain ⟨a, sign, body, b, n, e, ha, hb, hn, hs⟩ := pyInt_iff.1 h3
    have h4' : rstripP (· == 10) line = t ++ 9 :: f := by rw [h4]; simp [List.intercalate]
    refine ⟨t, f ++ g, by rw [g1, h4']; simp, h5 t (by simp), ?_, trimmed_iff.2 h2, a, sign, body, b ++ g, n, by rw [e]; simp, ha, ?_, hn, hs⟩
    · simp only [List.mem_append, not_or]
      exact ⟨h5 f (by simp), fun h => by have := g2 9 h; simp at this⟩
    · intro c hc
      rcases List.mem_append.1 hc with hc | hc
      · exact hb c hc
      · exact hnl g2 c hc

theorem mem_set {d : Dict Str Int} (hd : (Dict.keys d).Nodup) (a : Str) (b : Int) : (Dict.keys (Dict.set d a b)).Nodup ∧
    ∀ k v, (k, v) ∈ Dict.set d a b ↔ k = a ∧ v = b ∨ k ≠ a ∧ (k, v) ∈ d := by
  induction d with
  | nil => simp [Dict.set, Dict.keys]
  | cons p d ih =>
    obtain ⟨k', v'⟩ := p
    simp only [Dict.keys, List.map_cons, List.nodup_cons] at hd
    obtain ⟨i1, i2⟩ := ih hd.2
    rw [Dict.set]
    split
    · rename_i hk
      subst hk
      refine ⟨by simpa [Dict.keys] using hd, fun k v => ?_⟩
      simp only [List.mem_cons, Prod.mk.injEq]
      constructor
      · rintro (h | h)
        · exact Or.inl h
        · right
          refine ⟨?_, Or.inr h⟩
          rintro rfl
          exact hd.1 (List.mem_map.2 ⟨_, h, rfl⟩)
      · rintro (h | ⟨h1, h2 | h2⟩)
        · exact Or.inl h
        · exact absurd h2.1 h1
        · exact Or.inr h2
    · rename_i hk
      refine ⟨?_, fun k v => ?_⟩
      · simp only [Dict.keys, List.map_cons, List.nodup_cons]
        refine ⟨?_, i1⟩
        rw [List.mem_map]
        rintro ⟨⟨k, v⟩, h1, h2⟩
        simp only at h2
        subst h2
        rcases (i2 k v).1 h1 with ⟨h3, _⟩ | ⟨_, h3⟩
        · exact hk h3
        · exact hd.1 (List.mem_map.2 ⟨_, h3, rfl⟩)
      · simp only [List.mem_cons, Prod.mk.injEq, i2]
        constructor
        · rintro (⟨rfl, rfl⟩ | h | h)
          · exact Or.inr ⟨hk, Or.inl ⟨rfl, rfl⟩⟩
          · exact Or.inl h
          · exact Or.inr ⟨h.1, Or.inr h.2⟩
        · rintro (h | ⟨h1, h2 | h2⟩)
          · exact Or.inr (Or.inl h)
          · exact Or.inl h2
          · exact Or.inr (Or.inr ⟨h1, h2⟩)

theorem freqRows_ok : ∀ {body : List Str} {rows : List (Str × Int)}, List.Forall₂ FreqRow body rows → ∀ d : Dict Str Int, (Dict.keys d).Nodup →
    ∃ d', readFreqRows d body = .ok d' ∧ (Dict.keys d').Nodup ∧ ∀ k v, (k, v) ∈ d' ↔
      (∃ a b, rows = a ++ (k, v) :: b ∧ ∀ q ∈ b, q.1 ≠ k) ∨ ((∀ q ∈ rows, q.1 ≠ k) ∧ (k, v) ∈ d)
  | _, _, .nil, d, hd => ⟨d, rfl, hd, by simp⟩
  | _, _, .cons (a := line) (b := p) (l₂ := rows) h hs, d, hd => by
    obtain ⟨t, f, h1, h2, h3⟩ := freqRow_iff.1 h
    obtain ⟨m1, m2⟩ := mem_set hd p.1 p.2
    obtain ⟨d', e1, e2, e3⟩ := freqRows_ok hs _ m1
    refine ⟨d', by rw [readFreqRows, h1]; dsimp only; rw [h3]; dsimp only; rw [h2, e1], e2, fun k v => ?_⟩
    rw [e3, m2]
    constructor
    · rintro (⟨a, b, rfl, h⟩ | ⟨h, ⟨rfl, rfl⟩ | ⟨hk, hm⟩⟩)
      · exact Or.inl ⟨p :: a, b, rfl, h⟩
      · exact Or.inl ⟨[], rows, rfl, h⟩
      · refine Or.inr ⟨fun q hq => ?_, hm⟩
        rcases List.mem_cons.1 hq with rfl | hq
        · exact fun e => hk e.symm
        · exact h q hq
    · rintro (⟨a, b, e, h⟩ | ⟨h, hm⟩)
      · cases a with
        | nil =>
          simp only [List.nil_append, List.cons.injEq] at e
          obtain ⟨rfl, rfl⟩ := e
          exact Or.inr ⟨h, Or.inl ⟨rfl, rfl⟩⟩
        | cons q a =>
          simp only [List.cons_append, List.cons.injEq] at e
          exact Or.inl ⟨a, b, e.2, h⟩
      · exact Or.inr ⟨fun q hq => h q (by simp [hq]), Or.inr ⟨fun e => h p (by simp) e.symm, hm⟩⟩

theorem freqRows_error : ∀ (body : List Str) (d : Dict Str Int), (¬ ∃ rows, List.Forall₂ FreqRow body rows) → readFreqRows d body = .error .value
  | [], _, h => absurd ⟨[], .nil⟩ h
  | line :: body, d, h => by
    rw [readFreqRows]
    split
    · rename_i t f hc
      rcases pyInt_cases f with ⟨i, _, hi⟩ | hi
      · rw [hi]
        dsimp only
        refine freqRows_error body _ ?_
        rintro ⟨rows, hr⟩
        exact h ⟨(strip t, i) :: rows, .cons (freqRow_iff.2 ⟨t, f, hc, rfl, hi⟩) hr⟩
      · rw [hi]
    · rfl

theorem freqBody_read (J : Json) {lines body : List Str} (hb : FreqBody lines body) :
    ∃ n, readTermFreqs J lines = match readFreqRows [] body with
      | .error e => .error e
      | .ok d => .ok (d, n) := by
  have hcond : ∀ l0 : Str, (startsWith [35] (rstripP (· == 10) l0) && decide ((splitOn (· == 9) (rstripP (· == 10) l0)).length ≠ 2)) = true ↔
      l0.head? = some 35 ∧ l0.count 9 ≠ 1 := by
    intro l0
    obtain ⟨g, g1, g2⟩ := rstripP_suffix (· == 10) l0
    generalize rstripP (· == 10) l0 = r at *
    subst g1
    have hg : ∀ c ∈ g, c = 10 := fun c hc => by simpa using g2 c hc
    have hcount : (r ++ g).count 9 = r.count 9 := by
      rw [List.count_append, List.count_eq_zero_of_not_mem (l := g) (fun h => by have := hg 9 h; omega), Nat.add_zero]
    rw [Bool.and_eq_true, decide_eq_true_eq, splitOn_count, hcount]
    have : startsWith [35] r = true ↔ (r ++ g).head? = some 35 := by
      cases r with
      | cons c r =>
        simp only [startsWith, List.isPrefixOf, Bool.and_true, beq_iff_eq, List.cons_append, List.head?_cons, Option.some.injEq]
        exact eq_comm
      | nil =>
        simp only [startsWith, List.isPrefixOf, Bool.false_eq_true, List.nil_append, false_iff]
        intro h
        have := hg 35 (List.mem_of_mem_head? h)
        omega
    rw [this]
    exact and_congr_right fun _ => by omega
  rcases hb with ⟨l0, rfl, h⟩ | ⟨rfl, h⟩
  · refine ⟨match J.loads ((rstripP (· == 10) l0).drop 1) with
        | .error _ => -1
        | .ok h => h.lineCount.getD (-1), ?_⟩
    rw [readTermFreqs]
    dsimp only
    rw [if_pos ((hcond l0).2 h)]
    rfl
  · cases body with
    | nil => exact ⟨-1, rfl⟩
    | cons l0 ls =>
      refine ⟨-1, ?_⟩
      rw [readTermFreqs]
      dsimp only
      rw [if_neg (fun hc => h l0 rfl ((hcond l0).1 hc))]
      rfl

/-- C107, frequency files: one is read exactly if all its lines after the header are rows; of several rows with the same term the last one counts.
Otherwise it is a ValueError. -/
theorem C107_freqs (J : Json) {lines body : List Str} (hb : FreqBody lines body) :
    (∀ rows, List.Forall₂ FreqRow body rows → ∃ d n, readTermFreqs J lines = .ok (d, n) ∧ (d.map (·.1)).Nodup ∧
      ∀ k v, (k, v) ∈ d ↔ ∃ a b, rows = a ++ (k, v) :: b ∧ ∀ q ∈ b, q.1 ≠ k) ∧
    ((¬ ∃ rows, List.Forall₂ FreqRow body rows) → readTermFreqs J lines = .error .value) := by
  obtain ⟨n, hn⟩ := freqBody_read J hb
  constructor
  · intro rows hr
    obtain ⟨d, h1, h2, h3⟩ := freqRows_ok hr [] .nil
    refine ⟨d, n, by rw [hn, h1], h2, fun k v => ?_⟩
    rw [h3]
    simp
  · intro hr
    rw [hn, freqRows_error body [] hr]

/-! ## cases -/

-- numbers in several scripts, with signs, underscores and white space
example : IntText (lit " +1_000\u3000") 1000 ∧ IntText (lit "-٤٢") (-42) ∧ ¬ ∃ i, IntText (lit "1__0") i := by
  refine ⟨pyInt_iff.1 (by decide +kernel), pyInt_iff.1 (by decide +kernel), ?_⟩
  rintro ⟨i, h⟩
  have := pyInt_iff.2 h
  have h2 : pyInt (lit "1__0") = .error .value := by decide +kernel
  rw [h2] at this
  cases this

-- the row of a type with two kids, one counted from the end of a table of three rows
example : Row 3 [⟨lit "a", 0, 0, 1, []⟩, ⟨lit "b", 0, 1, 1, []⟩] (lit " 2\tab\t1\t٥\t-3 +1 \n")
    ⟨lit "ab", 1, 2, 5, [⟨lit "a", 0, 0, 1, []⟩, ⟨lit "b", 0, 1, 1, []⟩]⟩ := by
  refine (row_iff (by decide)).2 ⟨⟨lit "ab", 1, 2, 5, [some ⟨lit "a", 0, 0, 1, []⟩, some ⟨lit "b", 0, 1, 1, []⟩]⟩, ?_, rfl, rfl, rfl, rfl, rfl, rfl⟩
  rfl

-- a row before which a type is missing is none
example (J : Json) : ∃ e, readVocab J (lit "1\tb\t0\t1\n") = .error e := ⟨_, rfl⟩

example : FreqRow (lit "a b \t 7\n") (lit "a b", 7) := freqRow_iff.2 ⟨lit "a b ", lit " 7", by decide +kernel, by decide +kernel, by decide +kernel⟩

example : FreqBody [lit "#\n", lit "a\t1\n", lit "a\t2\n"] [lit "a\t1\n", lit "a\t2\n"] ∧
    readTermFreqs pyJson [lit "#\n", lit "a\t1\n", lit "a\t2\n"] = .ok ([(lit "a", 2)], -1) :=
  ⟨Or.inl ⟨_, rfl, by decide, by decide⟩, by decide +kernel⟩

-- a line that a file of words may well begin with is taken for a row
example : FreqBody [lit "#a\t3\n"] [lit "#a\t3\n"] := Or.inr ⟨rfl, fun l h => by cases h; decide⟩

example : pyInt (List.map Char.toNat "\u00a0-1_0\u3000".toList) = .ok (-10) ∧ pyInt [0x665] = .ok 5 ∧ pyInt [0x1c, 0x35] = .error .value ∧
    pyInt [0x2b, 0x5f, 0x31] = .error .value ∧ pyInt [0x31, 0x5f] = .error .value ∧ pyInt [0x31, 0x5f, 0x5f, 0x31] = .error .value ∧
    pyInt [] = .error .value ∧ pyInt [0x2d] = .error .value := by decide

end Verif
