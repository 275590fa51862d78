import Verif.Lemmas.Decimal
import Verif.Props.Eval
import Verif.Props.TermFreq
import Verif.Props.Models
/-!
# Property C118: the table of pr_measure can be read back

`Spec.readDecimal`, `Spec.SixDigits` and `Spec.NearestSix` (Verif/Spec/Decimal.lean) say what decimal numerals stand for and what rounding to six
significant digits is.
-/

namespace Verif
open Spec

/-! ## Numbers -/

/-- C118, numbers: what is written for a number that is not negative is a decimal numeral for a nearest number of six significant digits; it has
neither white space nor commas. -/
theorem C118_number {x : ℚ} (hx : 0 ≤ x) : ∃ v, readDecimal (fmtG x) = some v ∧ NearestSix x v ∧
    ∀ c ∈ fmtG x, isWhite c = false ∧ c ≠ 44 := by
  obtain ⟨v, h1, h2, h3⟩ := fmtG_spec hx
  refine ⟨v, h1, h2, fun c hc => ?_⟩
  obtain ⟨a, b, d⟩ := h3 c hc
  exact ⟨by rw [isWhite_eq]; exact isSpace_lo (by omega) (by omega), d⟩

/-- C118, numbers: the numeral is off by at most five millionths of the number. -/
theorem C118_error {x v : ℚ} (hx : 0 ≤ x) (h : readDecimal (fmtG x) = some v) : |v - x| ≤ x * (5 / 10 ^ 6) := by
  obtain ⟨v', h1, h2, _⟩ := fmtG_spec hx
  rw [h] at h1
  cases h1
  rcases hx.eq_or_lt with rfl | hx
  · have := h2.2 0 ⟨0, 0, by norm_num, by norm_num⟩
    simpa using this
  have l1 := Int.zpow_log_le_self (b := 10) (r := x) (by norm_num) hx
  have l2 := Int.lt_zpow_succ_log_self (b := 10) (by norm_num) x
  generalize Int.log 10 x = e at l1 l2
  push_cast at l1 l2
  have p10 : ∀ k : ℤ, (0 : ℚ) < 10 ^ k := fun k => zpow_pos (by norm_num) k
  have n10 : (10 : ℚ) ≠ 0 := by norm_num
  have s5 : (10 : ℚ) ^ e = 100000 * 10 ^ (e - 5) := by
    have : e = 5 + (e - 5) := by ring
    conv_lhs => rw [this, zpow_add₀ n10]
    norm_num
  have s6 : (10 : ℚ) ^ (e + 1) = 1000000 * 10 ^ (e - 5) := by
    have : e + 1 = 6 + (e - 5) := by ring
    conv_lhs => rw [this, zpow_add₀ n10]
    norm_num
  have hp := p10 (e - 5)
  generalize hu : (10 : ℚ) ^ (e - 5) = u at *
  obtain ⟨k, hk⟩ : ∃ k : ℤ, k = ⌊x / u⌋ := ⟨_, rfl⟩
  have f1 : (k : ℚ) * u ≤ x := by
    have := Int.floor_le (x / u)
    rw [← hk, le_div_iff₀ hp] at this
    exact this
  have f2 : x < (k + 1) * u := by
    have := Int.lt_floor_add_one (x / u)
    rw [← hk, div_lt_iff₀ hp] at this
    exact this
  have k1 : 0 ≤ k := by rw [hk]; exact Int.floor_nonneg.2 (div_nonneg hx.le hp.le)
  have k2 : k < 1000000 := by
    have : (k : ℚ) < 1000000 := lt_of_mul_lt_mul_right (lt_of_le_of_lt f1 (s6 ▸ l2)) hp.le
    exact_mod_cast this
  obtain ⟨n, rfl⟩ : ∃ n : ℕ, k = n := ⟨k.toNat, by omega⟩
  push_cast at f1 f2
  have w1 : SixDigits (n * u) := ⟨n, e - 5, by norm_num; omega, by rw [hu]⟩
  have w2 : SixDigits ((n + 1) * u) := by
    by_cases hn : n + 1 < 10 ^ 6
    · exact ⟨n + 1, e - 5, hn, by rw [hu]; push_cast; rfl⟩
    · refine ⟨1, e + 1, by norm_num, ?_⟩
      have : n = 999999 := by norm_num at hn; omega
      rw [s6, this]; norm_num
  have a1 := h2.2 _ w1
  have a2 := h2.2 _ w2
  rw [abs_of_nonpos (by linarith : (n : ℚ) * u - x ≤ 0)] at a1
  rw [abs_of_nonneg (by linarith : 0 ≤ ((n : ℚ) + 1) * u - x)] at a2
  have : 100000 * u ≤ x := s5 ▸ l1
  linarith

/-- C118, numbers: with at most six significant digits the number is written exactly. -/
theorem C118_exact {x : ℚ} (hx : 0 ≤ x) (h : SixDigits x) : readDecimal (fmtG x) = some x := by
  obtain ⟨v, h1, h2, _⟩ := fmtG_spec hx
  have := h2.2 x h
  rw [sub_self, abs_zero] at this
  have : v = x := sub_eq_zero.1 (abs_eq_zero.1 (le_antisymm this (abs_nonneg _)))
  rw [h1, this]

/-- C118, numbers: of two numbers the greater one is not written as the less. -/
theorem C118_monotone {x y v w : ℚ} (hx : 0 ≤ x) (hxy : x ≤ y) (hv : readDecimal (fmtG x) = some v) (hw : readDecimal (fmtG y) = some w) : v ≤ w := by
  rcases hxy.eq_or_lt with rfl | hxy
  · rw [hv] at hw; cases hw; exact le_rfl
  obtain ⟨v', h1, h2, _⟩ := fmtG_spec hx
  rw [hv] at h1
  cases h1
  obtain ⟨w', h3, h4, _⟩ := fmtG_spec (le_trans hx hxy.le)
  rw [hw] at h3
  cases h3
  by_contra hlt
  rw [not_le] at hlt
  have a := h2.2 w h4.1
  have b := h4.2 v h2.1
  rcases le_total x w with c1 | c1
  · rw [abs_of_nonneg (by linarith : 0 ≤ v - x), abs_of_nonneg (by linarith : 0 ≤ w - x)] at a
    linarith
  · rw [abs_of_nonpos (by linarith : w - x ≤ 0)] at a
    rw [abs_of_nonpos (by linarith : w - y ≤ 0)] at b
    rcases le_total v y with c2 | c2
    · rw [abs_of_nonpos (by linarith : v - y ≤ 0)] at b
      linarith
    · rw [abs_of_nonneg (by linarith : 0 ≤ v - y)] at b
      have := (abs_le.1 a).2
      linarith

/-- C118, numbers: a 1 in the table does not mean exactly 1. A recall of 2999999 lines in 3000000 is written as 1, and so is every number between that
and 1. -/
theorem C118_one : rnd64 (2999999 / 3000000) < 1 ∧ fmtG (rnd64 (2999999 / 3000000)) = lit "1" ∧
    ∀ x : ℚ, 2999999 / 3000000 ≤ x → x ≤ 1 → readDecimal (fmtG x) = some 1 := by
  refine ⟨by decide +kernel, by decide +kernel, fun x h1 h2 => ?_⟩
  obtain ⟨v, hv, _⟩ := fmtG_spec (x := x) (by linarith)
  have ha : readDecimal (fmtG (2999999 / 3000000)) = some 1 := by decide +kernel
  have hb : readDecimal (fmtG 1) = some 1 := by decide +kernel
  have c1 := C118_monotone (by norm_num) h1 ha hv
  have c2 := C118_monotone (by linarith) h2 hv hb
  rw [hv, le_antisymm c2 c1]

example : fmtG (2 / 3) = lit "0.666667" ∧ fmtG (1 / 2) = lit "0.5" ∧ fmtG 0 = lit "0" ∧ fmtG 1 = lit "1" ∧ fmtG (1 / 30000) = lit "3.33333e-05" ∧
    fmtG (1 / 8192) = lit "0.00012207" ∧ fmtG 1234567 = lit "1.23457e+06" ∧ fmtG (1000005 / 10) = lit "100000" ∧
    fmtG (9999996 / 10 ^ 11) = lit "0.0001" := by decide +kernel

example : readDecimal (lit "0.00012207") = some (12207 / 10 ^ 8) ∧ readDecimal (lit "1.25e-07") = some (125 / 10 ^ 9) ∧
    readDecimal (lit "1e+06") = some 1000000 ∧ readDecimal (lit "1.") = none ∧ readDecimal (lit "") = none := by decide +kernel

/-! ## The lines of the table -/

/-- `line` shows the row `r`: nine columns separated by tabs, which hold the rank, the id, the name of its type, the three frequencies, and recall,
precision and F1 rounded to six significant digits -/
def Spec.ShowsRow (table : List Ty) (r : PrRow) (line : Str) : Prop :=
  ∃ c0 c1 c2 c3 c4 c5 c6 c7 c8 : Str, line = List.intercalate [9] [c0, c1, c2, c3, c4, c5, c6, c7, c8] ∧
    (∀ c ∈ [c0, c1, c2, c3, c4, c5, c6, c7, c8], 9 ∉ c) ∧ IntText c0 r.rank ∧
    (∃ i, r.gram = [i] ∧ IntText c1 i ∧ IsName table i c2) ∧ IntText c3 r.rankFreq ∧ IntText c4 r.refFreq ∧ IntText c5 r.candFreq ∧
    (∃ v, readDecimal c6 = some v ∧ NearestSix r.recall v) ∧ (∃ v, readDecimal c7 = some v ∧ NearestSix r.precision v) ∧
    ∃ v, readDecimal c8 = some v ∧ NearestSix r.f1 v

/-- the names of a loaded table have no tabs and no line breaks -/
theorem loaded_names (J : Json) {text : Str} {s : Scheme} (h : loadScheme J text = .ok s) : ∀ t ∈ s.table, 9 ∉ t.name ∧ NoBreak t.name := by
  obtain ⟨ls, hl⟩ := lines_exist text
  obtain ⟨l0, rest, _, _, rows, hls, _, _, _, hrows, _, ht⟩ := (C113_load J hl s.kind s.table).1 ⟨s, h, rfl, rfl⟩
  have hnb : ∀ l ∈ ls, NoBreak l := by
    clear * - hl
    induction hl with
    | nil => simp
    | last _ h => simpa using h
    | lf h _ ih => simpa using ⟨h, ih⟩
    | crlf h _ ih => simpa using ⟨h, ih⟩
    | cr h _ _ ih => simpa using ⟨h, ih⟩
  rcases ht with ⟨ht, _⟩ | ⟨_, _, ht⟩
  · rw [ht]
    intro t htm
    obtain ⟨i, hi, rfl⟩ := List.getElem_of_mem htm
    have hi' : i < rest.length := hrows.1 ▸ hi
    obtain ⟨c0, c2, c3, more, ⟨a, b, hline, _⟩, h9, _⟩ := hrows.2 i rest[i] rows[i] (List.getElem?_eq_getElem hi') (List.getElem?_eq_getElem hi)
    have hn := hnb rest[i] (by rw [hls]; exact List.mem_cons_of_mem _ (List.getElem_mem hi'))
    have hsub : ∀ c ∈ rows[i].name, c ∈ rest[i] := by
      intro c hc
      rw [hline]
      refine List.mem_append_left _ (List.mem_append_right _ ?_)
      rw [← join_eq_intercalate]
      simp only [join, List.mem_append]
      exact Or.inr (Or.inl (Or.inl hc))
    exact ⟨h9 _ (by simp), fun hc => hn.1 (hsub _ hc), fun hc => hn.2 (hsub _ hc)⟩
  · rw [ht]
    have : ∀ t ∈ defaultBytes, 9 ∉ t.name ∧ NoBreak t.name := by decide +kernel
    exact this

/-- what the rows hold, if they are made at all -/
theorem prRows_inv {fl : ℚ → ℚ} {table : List Ty} {rep : GramReport Int} : ∀ (l : List (List Int × Int)) (i : ℕ) (rows : List PrRow),
    prRows fl table rep l i = .ok rows → rows.map (fun r => (r.gram, r.rankFreq)) = l ∧
      ∀ r ∈ rows, (∃ ns, namesOf table r.gram = .ok ns ∧ r.name = join [44] ns) ∧ f1Measure fl r.precision r.recall = .ok r.f1
  | [], i, rows, h => by rw [prRows] at h; cases h; exact ⟨rfl, by simp⟩
  | (g, f) :: l, i, rows, h => by
    rw [prRows] at h
    cases hns : namesOf table g with
    | error e => rw [hns] at h; cases h
    | ok ns =>
      rw [hns] at h
      dsimp only at h
      cases hf : f1Measure fl ((Dict.get? rep.precisions g).getD 1) ((Dict.get? rep.recalls g).getD 0) with
      | error e => rw [hf] at h; cases h
      | ok f1 =>
        rw [hf] at h
        dsimp only at h
        cases hr : prRows fl table rep l (i + 1) with
        | error e => rw [hr] at h; cases h
        | ok rows' =>
          rw [hr] at h
          cases h
          obtain ⟨a, b⟩ := prRows_inv l (i + 1) rows' hr
          refine ⟨by rw [List.map_cons, a], fun r hr => ?_⟩
          rcases List.mem_cons.1 hr with rfl | hr
          · exact ⟨⟨ns, hns, rfl⟩, hf⟩
          · exact b r hr

/-- every row is about one id, has its name, and numbers that are not negative -/
theorem prMain_inv {fl : ℚ → ℚ} (hf : Rounding fl) {s : Scheme} {nCpus : Int}
    {done : List (Nat × Py (List (List Int))) → List (Nat × Py (List (List Int)))} {cands refs : List Str} {n : ℤ}
    {freqs : Option (List (List Int × Int))} {rows : List PrRow} (h : prMain fl s nCpus done cands refs n freqs = .ok rows) :
    ∀ r ∈ rows, (∃ i, r.gram = [i] ∧ IsName s.table i r.name) ∧ 0 ≤ r.recall ∧ 0 ≤ r.precision ∧ 0 ≤ r.f1 := by
  rw [prMain] at h
  split at h
  swap
  · cases h
  cases hc : (parallelMap s.encode cands nCpus 1000 done).toList with
  | error e => rw [hc] at h; cases h
  | ok cs =>
    rw [hc] at h
    dsimp only at h
    cases hr : (parallelMap s.encode refs nCpus 1000 done).toList with
    | error e => rw [hr] at h; cases h
    | ok rs =>
      rw [hr] at h
      dsimp only at h
      obtain ⟨rep, h1, h2⟩ := countGramRecall_ok fl (n := 1) (by omega) cs rs
      rw [show ((1 : ℕ) : ℤ) = 1 from rfl] at h1
      rw [h1] at h
      dsimp only at h
      split at h
      · cases h
      obtain ⟨a, b⟩ := prRows_inv _ _ _ h
      intro r hrm
      obtain ⟨⟨ns, b1, b2⟩, b3⟩ := b r hrm
      have hkey : r.gram ∈ Dict.keys (rankFreqs rep freqs) := by
        have : (r.gram, r.rankFreq) ∈ (rankFreqs rep freqs).insertionSort fun a b => b.2 ≤ a.2 := by
          rw [← a]; exact List.mem_map.2 ⟨r, hrm, rfl⟩
        rw [List.mem_insertionSort] at this
        exact List.mem_map.2 ⟨_, this, rfl⟩
      have hone : r.gram ∈ Dict.keys rep.refFreqs ∨ r.gram ∈ Dict.keys rep.candFreqs := by
        cases freqs with
        | none => exact Or.inl hkey
        | some fs =>
          rcases (C74_freqs_rows rep fs _).1 hkey with h | h
          · exact Or.inl h
          · exact Or.inr h.2
      have hlen : r.gram.length = 1 := by
        rcases hone with hk | hk
        · rw [← Dict.isSome_get?_iff, h2.refs] at hk
          exact (mem_of_totalCount (fun e => by rw [if_pos e] at hk; cases hk)).1
        · rw [← Dict.isSome_get?_iff, h2.cands] at hk
          exact (mem_of_totalCount (fun e => by rw [if_pos e] at hk; cases hk)).1
      obtain ⟨i, hi⟩ := List.length_eq_one_iff.1 hlen
      have hname := namesOf_isName b1
      rw [hi] at hname
      cases hname with
      | cons hn0 hnil =>
        cases hnil
        refine ⟨⟨i, hi, by rw [b2]; exact hn0⟩, ?_⟩
        have f0 : fl 0 = 0 := by have := hf.nat 0 (by norm_num); simpa using this
        have fpos : ∀ {x : ℚ}, 0 ≤ x → 0 ≤ fl x := fun h => by have := hf.mono h; rwa [f0] at this
        rw [f1Measure] at b3
        split at b3
        · rename_i hp
          split at b3
          · rename_i hrr
            refine ⟨hrr.1, hp.1, ?_⟩
            dsimp only at b3
            split at b3
            · rw [← Except.ok.inj b3]
            · rw [← Except.ok.inj b3]
              exact fpos (div_nonneg (fpos (mul_nonneg (fpos (by linarith [hp.1])) hrr.1)) (fpos (by linarith [hp.1, hrr.1])))
          · cases b3
        · cases b3

theorem intText_intStr (i : Int) : IntText (intStr i) i := pyInt_iff.1 (pyInt_intStr i)

/-- C118, the table: if the table is written, it is a header and one line for each row, and every line shows its row in nine columns separated by
tabs, whatever the names of the types are. -/
theorem C118_table {fl : ℚ → ℚ} (hf : Rounding fl) {J : Json} {loads : Str → Py JTree} {model : Str} {nCpus : Int}
    {done : List (Nat × Py (List (List Int))) → List (Nat × Py (List (List Int)))} {cands refs : List Str} {n : ℤ} {freqs : Option Str} {out : Str}
    (h : prFile fl J loads model nCpus done cands refs n freqs = .ok out) :
    ∃ s fs rows ls, loadScheme J model = .ok s ∧ optGramFreqs loads freqs = .ok fs ∧ prMain fl s nCpus done cands refs n fs = .ok rows ∧
      Lines out (List.intercalate [9] [lit "Rank", lit "Gram", lit "Name", lit "RankF", lit "RefF", lit "CandF", lit "Recall", lit "Precision", lit "F1"] :: ls) ∧
      List.Forall₂ (ShowsRow s.table) rows ls := by
  rw [prFile] at h
  cases hs : loadScheme J model with
  | error e => rw [hs] at h; cases h
  | ok s =>
    rw [hs] at h
    dsimp only at h
    cases hfs : optGramFreqs loads freqs with
    | error e => rw [hfs] at h; cases h
    | ok fs =>
      rw [hfs] at h
      dsimp only at h
      cases hm : prMain fl s nCpus done cands refs n fs with
      | error e => rw [hm] at h; cases h
      | ok rows =>
        rw [hm] at h
        cases h
        have hrow := prMain_inv hf hm
        have hnames := loaded_names J hs
        let cols : PrRow → List Str := fun r => [natStr r.rank, join [44] (r.gram.map intStr), r.name, intStr r.rankFreq, intStr r.refFreq,
          intStr r.candFreq, fmtG r.recall, fmtG r.precision, fmtG r.f1]
        have hint : ∀ i : Int, ∀ c ∈ intStr i, c ≠ 9 ∧ c ≠ 10 ∧ c ≠ 13 := fun i c hc => by have := intStr_chars i c hc; omega
        have hnat : ∀ i : Nat, ∀ c ∈ natStr i, c ≠ 9 ∧ c ≠ 10 ∧ c ≠ 13 := fun i c hc => by have := natStr_digits i c hc; omega
        have hg : ∀ {x : ℚ}, 0 ≤ x → ∀ c ∈ fmtG x, c ≠ 9 ∧ c ≠ 10 ∧ c ≠ 13 := fun hx c hc => by
          obtain ⟨_, _, _, h3⟩ := fmtG_spec hx
          obtain ⟨a, _, _⟩ := h3 c hc
          omega
        have hcol : ∀ r ∈ rows, ∀ col ∈ cols r, ∀ c ∈ col, c ≠ 9 ∧ c ≠ 10 ∧ c ≠ 13 := by
          intro r hr col hcol
          obtain ⟨⟨i, hi, t, ht, hidx⟩, h1, h2, h3⟩ := hrow r hr
          have htm : t ∈ s.table := by
            rcases hidx with ⟨_, h⟩ | ⟨_, _, h⟩ <;> exact List.mem_of_getElem? h
          simp only [cols, List.mem_cons, List.not_mem_nil, or_false, hi, List.map_cons, List.map_nil, join] at hcol
          rcases hcol with rfl | rfl | rfl | rfl | rfl | rfl | rfl | rfl | rfl
          · exact hnat _
          · exact hint _
          · intro c hc
            rw [← ht] at hc
            obtain ⟨n1, n2, n3⟩ := hnames t htm
            exact ⟨fun e => n1 (e ▸ hc), fun e => n2 (e ▸ hc), fun e => n3 (e ▸ hc)⟩
          · exact hint _
          · exact hint _
          · exact hint _
          · exact hg h1
          · exact hg h2
          · exact hg h3
        refine ⟨s, fs, rows, rows.map fun r => join [9] (cols r), rfl, rfl, hm, ?_, ?_⟩
        · have hh : prHeader = List.intercalate [9] [lit "Rank", lit "Gram", lit "Name", lit "RankF", lit "RefF", lit "CandF", lit "Recall", lit "Precision", lit "F1"] ++ [10] := by
            decide +kernel
          rw [hh, List.append_assoc]
          refine .lf (by decide +kernel) ?_
          have hnb : ∀ r ∈ rows, NoBreak (join [9] (cols r)) := by
            intro r hr
            have key : ∀ c ∈ join [9] (cols r), c = 9 ∨ ∃ col ∈ cols r, c ∈ col := by
              have : ∀ (l : List Str), ∀ c ∈ join [9] l, c = 9 ∨ ∃ col ∈ l, c ∈ col := by
                intro l
                induction l with
                | nil => intro c hc; cases hc
                | cons w l ih =>
                  cases l with
                  | nil => intro c hc; exact Or.inr ⟨w, by simp, hc⟩
                  | cons w' l =>
                    intro c hc
                    simp only [join, List.mem_append, List.mem_singleton] at hc
                    rcases hc with (hc | hc) | hc
                    · exact Or.inr ⟨w, by simp, hc⟩
                    · exact Or.inl hc
                    · rcases ih c hc with h | ⟨col, h1, h2⟩
                      · exact Or.inl h
                      · exact Or.inr ⟨col, List.mem_cons_of_mem _ h1, h2⟩
              exact this _
            constructor <;> intro hc <;> rcases key _ hc with h | ⟨col, h1, h2⟩
            · omega
            · exact (hcol r hr col h1 _ h2).2.1 rfl
            · omega
            · exact (hcol r hr col h1 _ h2).2.2 rfl
          clear * - hnb
          induction rows with
          | nil => exact .nil
          | cons r rows ih =>
            rw [List.flatMap_cons, prLine, List.append_assoc, List.map_cons]
            exact .lf (hnb r (by simp)) (ih fun r hr => hnb r (by simp [hr]))
        · rw [List.forall₂_map_right_iff]
          refine List.forall₂_same.2 fun r hr => ?_
          obtain ⟨⟨i, hi, hname⟩, h1, h2, h3⟩ := hrow r hr
          obtain ⟨v1, d1, e1, _⟩ := fmtG_spec h1
          obtain ⟨v2, d2, e2, _⟩ := fmtG_spec h2
          obtain ⟨v3, d3, e3, _⟩ := fmtG_spec h3
          refine ⟨natStr r.rank, join [44] (r.gram.map intStr), r.name, intStr r.rankFreq, intStr r.refFreq, intStr r.candFreq, fmtG r.recall,
            fmtG r.precision, fmtG r.f1, join_eq_intercalate _ _, fun c hc h9 => (hcol r hr c hc 9 h9).1 rfl, pyInt_iff.1 (pyInt_natStr _),
            ⟨i, hi, ?_, hname⟩, intText_intStr _, intText_intStr _, intText_intStr _, ⟨v1, d1, e1⟩, ⟨v2, d2, e2⟩, ⟨v3, d3, e3⟩⟩
          rw [hi]
          exact intText_intStr i

/-! ## Ranking by the frequencies of another text -/

/-- the table of a list whose entries agree -/
theorem freqTable_get {fs : List (List Int × Int)} {F : List Int → Int} (h : ∀ p ∈ fs, p.2 = F p.1) (g : List Int) :
    Dict.get? (freqTable fs) g = if g ∈ fs.map (·.1) then some (F g) else none := by
  have key : ∀ (l : List (List Int × Int)) (d : Dict (List Int) Int), (∀ p ∈ l, p.2 = F p.1) →
      Dict.get? (l.foldl (fun d p => Dict.set d p.1 p.2) d) g = if g ∈ l.map (·.1) then some (F g) else Dict.get? d g := by
    intro l
    induction l with
    | nil => intro d _; simp
    | cons p l ih =>
      intro d hl
      rw [List.foldl_cons, ih _ fun q hq => hl q (by simp [hq])]
      by_cases h1 : g ∈ l.map (·.1)
      · rw [if_pos h1, if_pos (by rw [List.map_cons]; exact List.mem_cons_of_mem _ h1)]
      · rw [if_neg h1, Dict.get?_set]
        by_cases h2 : p.1 = g
        · rw [if_pos h2, if_pos (by simp [h2]), hl p (by simp), h2]
        · rw [if_neg h2, if_neg (by simpa [Ne.symm h2] using h1)]
  rw [freqTable, key fs [] h]
  rfl

theorem jsonInts_map (g : List Int) : jsonInts (g.map .int) = some g := by
  induction g with
  | nil => rfl
  | cons i g ih => rw [List.map_cons, jsonInts, ih]; rfl

theorem freqEntry_line {loads : Str → Py JTree} (hj : ∀ v : JTree, loads v.print = .ok v) (row : List Int × Int × List Str) :
    freqEntry loads (termFreqLine row) = .ok (row.1, row.2.1) := by
  have hst : strip (termFreqLine row) = termFreqLine row := by
    apply strip_eq_self
    · intro c hc
      rw [termFreqLine, JTree.print] at hc
      simp only [List.cons_append, List.head?_cons, Option.some.injEq] at hc
      rw [← hc]; decide
    · intro c hc
      rw [termFreqLine, JTree.print] at hc
      rw [List.getLast?_append] at hc
      simp only [List.getLast?_singleton, Option.some_or, Option.some.injEq] at hc
      rw [← hc]; decide
  rw [freqEntry, hst, termFreqLine, hj]
  simp only [jsonInts_map]

theorem readGramFreqs_lines {loads : Str → Py JTree} (hj : ∀ v : JTree, loads v.print = .ok v) (rows : List (List Int × Int × List Str)) :
    readGramFreqs loads (rows.map termFreqLine) = .ok (rows.map fun r => (r.1, r.2.1)) := by
  induction rows with
  | nil => rfl
  | cons r rows ih => rw [List.map_cons, readGramFreqs, freqEntry_line hj, ih]; rfl

theorem termFreq_lines (rows : List (List Int × Int × List Str)) :
    Lines (rows.flatMap fun r => termFreqLine r ++ [10]) (rows.map termFreqLine) := by
  induction rows with
  | nil => exact .nil
  | cons r rows ih =>
    rw [List.flatMap_cons, List.append_assoc, List.map_cons]
    refine .lf ⟨fun hm => ?_, fun hm => ?_⟩ ih
    · have := JTree.print_ge _ _ hm; omega
    · have := JTree.print_ge _ _ hm; omega

theorem pyIndex_range {α : Type} {l : List α} {i : Int} (h1 : -(l.length : ℤ) ≤ i) (h2 : i < l.length) : ∃ t, pyIndex l i = .ok t := by
  simp only [pyIndex]
  by_cases h0 : i < 0
  · rw [if_pos h0, if_neg (by omega), List.getElem?_eq_getElem (by omega)]
    exact ⟨_, rfl⟩
  · rw [if_neg h0, if_neg h0, List.getElem?_eq_getElem (by omega)]
    exact ⟨_, rfl⟩

/-- C118, `--freqs`: given the file that `termfreq` writes for a training text, pr_measure ranks the types by their frequency in that text, and has a row
for every type of the references and for the types of the candidates that are in the training text; types that are not in it are ranked last, with -1.
`loads` is `json.loads`, of which only this is assumed: it reads what `json.dumps` writes. -/
theorem C118_ranked {fl : ℚ → ℚ} (hf : Rounding fl) {s : Scheme} {train cands refs : List Str} {ts cs rs : List (List Int)}
    (ht : List.Forall₂ (fun line ids => s.encode line = .ok ids) train ts) (hc : List.Forall₂ (fun line ids => s.encode line = .ok ids) cands cs)
    (hr : List.Forall₂ (fun line ids => s.encode line = .ok ids) refs rs) (hl : cands.length = refs.length) (hlen : cands.length ≤ 2 ^ 53)
    (hidx : ∀ ids ∈ ts ++ cs ++ rs, ∀ i ∈ ids, -(s.table.length : ℤ) ≤ i ∧ i < s.table.length)
    {nCpus : ℤ} (hn : 2 ≤ nCpus) {done : List (Nat × Py (List (List Int))) → List (Nat × Py (List (List Int)))} (hd : ∀ r, (done r).Perm r)
    {loads : Str → Py JTree} (hj : ∀ v : JTree, loads v.print = .ok v) (n : ℤ) :
    ∃ text fs rows, termFreqText s nCpus done train 1 = .ok text ∧ optGramFreqs loads (some text) = .ok (some fs) ∧
      prMain fl s nCpus done cands refs n (some fs) = .ok rows ∧ rows.map (·.rank) = List.range' 1 rows.length ∧ (rows.map (·.gram)).Nodup ∧
      (∀ g, g ∈ rows.map (·.gram) ↔ 0 < totalCount 1 rs g ∨ 0 < totalCount 1 ts g ∧ 0 < totalCount 1 cs g) ∧
      rows.Pairwise (fun a b => b.rankFreq ≤ a.rankFreq) ∧
      ∀ r ∈ rows, r.rankFreq = (if totalCount 1 ts r.gram = 0 then -1 else (totalCount 1 ts r.gram : ℤ)) ∧
        r.refFreq = (if totalCount 1 rs r.gram = 0 then -1 else (totalCount 1 rs r.gram : ℤ)) ∧
        r.candFreq = (if totalCount 1 cs r.gram = 0 then -1 else (totalCount 1 cs r.gram : ℤ)) := by
  obtain ⟨trows, t1, t2, t3, _⟩ := C79_rows ht (fun ids h i hi => hidx ids (by simp [h]) i hi) hn hd (n := 1) (by omega)
  rw [show ((1 : ℕ) : ℤ) = 1 from rfl] at t1
  have hfsl : fileLines (univNewlines (trows.flatMap fun r => termFreqLine r ++ [10])) = trows.map termFreqLine := sparkRows_spec (termFreq_lines trows)
  have f1 : fl 1 = 1 := by have := hf.nat 1 (by norm_num); simpa using this
  have hlcs : cs.length = rs.length := by rw [← hc.length_eq, ← hr.length_eq, hl]
  have hz1 : (cs.zip rs).map (·.1) = cs := List.map_fst_zip (by omega)
  have hz2 : (cs.zip rs).map (·.2) = rs := List.map_snd_zip (by omega)
  have hzl : (cs.zip rs).length ≤ 2 ^ 53 := by rw [List.length_zip, ← hlcs, min_self, ← hc.length_eq]; exact hlen
  obtain ⟨rep, h1, h2⟩ := countGramRecall_ok fl (n := 1) (by omega) cs rs
  obtain ⟨rep', h1', hrange⟩ := C58_range hf cs rs hzl (n := 1) (by omega)
  rw [h1] at h1'
  cases h1'
  have hrefs := h2.refs
  have hcands := h2.cands
  rw [hz2] at hrefs
  rw [hz1] at hcands
  have hf1 : ∀ g, ∃ f, f1Measure fl ((Dict.get? rep.precisions g).getD 1) ((Dict.get? rep.recalls g).getD 0) = .ok f := by
    intro g
    have a : 0 ≤ (Dict.get? rep.recalls g).getD 0 ∧ (Dict.get? rep.recalls g).getD 0 ≤ 1 := by
      cases hg : Dict.get? rep.recalls g with
      | none => simp
      | some v => exact ⟨(hrange.1 g v hg).1, (hrange.1 g v hg).2.1⟩
    have b : (0 ≤ (Dict.get? rep.precisions g).getD 1 ∧ (Dict.get? rep.precisions g).getD 1 ≤ 1) ∧ fl ((Dict.get? rep.precisions g).getD 1) = (Dict.get? rep.precisions g).getD 1 := by
      cases hg : Dict.get? rep.precisions g with
      | none => simp [f1]
      | some v => exact ⟨⟨(hrange.2 g v hg).1, (hrange.2 g v hg).2.1⟩, (hrange.2 g v hg).2.2⟩
    exact (C58_f1_range hf b.1 a b.2).imp fun _ h => h.1
  have hrk : ∀ g, g ∈ Dict.keys rep.refFreqs ↔ 0 < totalCount 1 rs g := fun g => by
    rw [← Dict.isSome_get?_iff, hrefs]
    by_cases h0 : totalCount 1 rs g = 0
    · simp [h0]
    · simp [h0, Nat.pos_of_ne_zero h0]
  have hck : ∀ g, g ∈ Dict.keys rep.candFreqs ↔ 0 < totalCount 1 cs g := fun g => by
    rw [← Dict.isSome_get?_iff, hcands]
    by_cases h0 : totalCount 1 cs g = 0
    · simp [h0]
    · simp [h0, Nat.pos_of_ne_zero h0]
  obtain ⟨fs, hfs⟩ : ∃ fs, fs = trows.map fun r => (r.1, r.2.1) := ⟨_, rfl⟩
  have hfk : fs.map (·.1) = trows.map (·.1) := by rw [hfs, List.map_map]; rfl
  have hfv : ∀ p ∈ fs, p.2 = (totalCount 1 ts p.1 : ℤ) := by
    intro p hp
    rw [hfs] at hp
    obtain ⟨r, hr, rfl⟩ := List.mem_map.1 hp
    exact (t3 r hr).1
  have hget := freqTable_get (F := fun g => (totalCount 1 ts g : ℤ)) hfv
  obtain ⟨gf, hgf⟩ : ∃ gf, gf = rankFreqs rep (some fs) := ⟨_, rfl⟩
  have hkeys : ∀ g, g ∈ Dict.keys gf ↔ 0 < totalCount 1 rs g ∨ 0 < totalCount 1 ts g ∧ 0 < totalCount 1 cs g := by
    intro g
    rw [hgf, C74_freqs_rows, hrk, hck, hfk, t2]
  -- keys are distinct, and the values
  have hft_nd : (Dict.keys (freqTable fs)).Nodup := by
    have : ∀ (l : List (List Int × Int)) (d : Dict (List Int) Int), (Dict.keys d).Nodup → (Dict.keys (l.foldl (fun d p => Dict.set d p.1 p.2) d)).Nodup := by
      intro l
      induction l with
      | nil => intro d h; exact h
      | cons p l ih => intro d h; exact ih _ (Dict.nodup_keys_set h _ _)
    exact this fs [] List.nodup_nil
  have hkn : (Dict.keys gf).Nodup := by
    rw [hgf]
    simp only [rankFreqs, Dict.keys, List.map_append, List.map_map]
    rw [List.nodup_append]
    refine ⟨hft_nd.sublist (List.Sublist.map _ List.filter_sublist), ?_, ?_⟩
    · rw [show (Prod.fst ∘ fun g : List Int => (g, (-1 : ℤ))) = id from rfl, List.map_id]
      exact h2.refs_nodup.filter _
    · intro a ha b hb hab
      subst hab
      rw [show (Prod.fst ∘ fun g : List Int => (g, (-1 : ℤ))) = id from rfl, List.map_id, List.mem_filter, Bool.not_eq_true', ← Bool.not_eq_true, Dict.mem_iff] at hb
      exact hb.2 ha
  have hval : ∀ g f, (g, f) ∈ gf → f = (if totalCount 1 ts g = 0 then -1 else (totalCount 1 ts g : ℤ)) := by
    intro g f hm
    rw [hgf] at hm
    simp only [rankFreqs, List.mem_append] at hm
    rcases hm with hm | hm
    · have hm' := (List.mem_filter.1 hm).1
      have := Dict.get?_of_mem hft_nd hm'
      rw [hget] at this
      split at this
      · rename_i hg
        cases this
        rw [hfk, t2] at hg
        rw [if_neg (by omega)]
      · cases this
    · obtain ⟨g', hg', e⟩ := List.mem_map.1 hm
      cases e
      rw [List.mem_filter, Bool.not_eq_true', ← Bool.not_eq_true, Dict.mem_iff] at hg'
      have h0 : ¬ 0 < totalCount 1 ts g := by
        intro hpos
        apply hg'.2
        have hin : g ∈ Dict.keys (freqTable fs) := by
          rw [← Dict.isSome_get?_iff, hget, if_pos (by rw [hfk, t2]; exact hpos)]
          rfl
        obtain ⟨p, hp, rfl⟩ := List.mem_map.1 hin
        refine List.mem_map.2 ⟨p, List.mem_filter.2 ⟨hp, ?_⟩, rfl⟩
        rw [Bool.or_eq_true, Dict.mem_iff]
        exact Or.inl hg'.1
      rw [if_pos (by omega)]
  have hperm := List.perm_insertionSort (fun a b : List Int × Int => b.2 ≤ a.2) gf
  have hix : ∀ g, g ∈ Dict.keys gf → ∀ i ∈ g, ∃ t, pyIndex s.table i = .ok t := by
    intro g hg i hi
    have : totalCount 1 rs g ≠ 0 ∨ totalCount 1 cs g ≠ 0 := by
      rcases (hkeys g).1 hg with h | h <;> omega
    have : ∃ ids ∈ ts ++ cs ++ rs, i ∈ ids := by
      rcases this with h | h
      · obtain ⟨ids, a, b⟩ := (mem_of_totalCount h).2 i hi
        exact ⟨ids, by simp [a], b⟩
      · obtain ⟨ids, a, b⟩ := (mem_of_totalCount h).2 i hi
        exact ⟨ids, by simp [a], b⟩
    obtain ⟨ids, a, b⟩ := this
    exact pyIndex_range (hidx ids a i b).1 (hidx ids a i b).2
  obtain ⟨rows, a1, a2, a3, a4⟩ := prRows_ok (table := s.table) hf1 (gf.insertionSort fun a b => b.2 ≤ a.2) 0 (by
    intro p hp
    exact namesOf_ok (hix p.1 (List.mem_map.2 ⟨p, hperm.mem_iff.1 hp, rfl⟩)))
  have hgrams : (rows.map (·.gram)).Perm (Dict.keys gf) := by
    have h3 : rows.map (·.gram) = (gf.insertionSort fun a b => b.2 ≤ a.2).map (·.1) := by rw [← a3, List.map_map]; rfl
    rw [h3]
    exact hperm.map _
  have hmain : prMain fl s nCpus done cands refs n (some fs) = .ok rows := by
    have p1 := C56_sequential hc hn (show (1 : ℤ) ≤ 1000 by omega) hd
    have p2 := C56_sequential hr hn (show (1 : ℤ) ≤ 1000 by omega) hd
    have hng : newGramNames s.table ((Dict.keys rep.candFreqs).filter fun g => !Dict.mem gf g) = .ok () := by
      refine newGramNames_ok fun g hg => ?_
      have hg := (List.mem_filter.1 hg).1
      rw [hck] at hg
      obtain ⟨b1, b2⟩ := mem_of_totalCount (by omega : totalCount 1 cs g ≠ 0)
      refine ⟨b1, fun i hi => ?_⟩
      obtain ⟨ids, hids, hi'⟩ := b2 i hi
      have := hidx ids (by simp [hids]) i hi'
      exact pyIndex_range this.1 this.2
    have h1' : countGramRecall fl cs rs 1 = .ok rep := h1
    simp only [prMain, hl, if_true, p1, p2, Gen.toList, h1', ← hgf, hng]
    split
    · rename_i e he; split at he <;> cases he
    · exact a1
  refine ⟨_, fs, rows, by rw [termFreqText, t1], ?_, hmain, ?_, hgrams.nodup_iff.2 hkn, fun g => by rw [hgrams.mem_iff, hkeys], ?_, ?_⟩
  · rw [optGramFreqs, hfsl, readGramFreqs_lines hj, ← hfs]
  · rw [a2, ← a3, List.length_map]
  · have hs : (rows.map fun r => (r.gram, r.rankFreq)).Pairwise (fun a b : List Int × Int => b.2 ≤ a.2) := by
      rw [a3]
      exact List.pairwise_insertionSort (fun a b : List Int × Int => b.2 ≤ a.2) gf
    rw [List.pairwise_map] at hs
    exact hs
  · intro r hr
    obtain ⟨_, b2, b3, _⟩ := a4 r hr
    refine ⟨hval _ _ ?_, ?_, ?_⟩
    · rw [← hperm.mem_iff, ← a3]
      exact List.mem_map.2 ⟨r, hr, rfl⟩
    · rw [b2, hrefs]; split <;> rfl
    · rw [b3, hcands]; split <;> rfl

/-- a training text in which `b` is more frequent than `a`, and `c` is not known; the candidate has `d`, which is only in the training text -/
example : (withScheme .word (exTable 1 ["a", "b", "c", "d"]) fun s => match termFreqText s 2 (fun r => r) [lit "b a b", lit "d"] 1 with
      | .error e => .error e
      | .ok text => match optGramFreqs (fun l => match readJson l with
          | some v => .ok v
          | none => .error .value) (some text) with
        | .error e => .error e
        | .ok fs => match prMain rnd64 s 2 (fun r => r) [lit "a b d d"] [lit "a b c"] 1 fs with
          | .error e => .error e
          | .ok rows => .ok (prHeader ++ rows.flatMap prLine)) =
    .ok (lit "Rank\tGram\tName\tRankF\tRefF\tCandF\tRecall\tPrecision\tF1\n1\t7\tb\t2\t1\t1\t1\t1\t1\n2\t6\ta\t1\t1\t1\t1\t1\t1\n3\t9\td\t1\t-1\t2\t0\t0\t0\n4\t8\tc\t-1\t1\t-1\t0\t1\t0\n") := by
  decide +kernel

/-- a class model read from a file, with names that have commas and blanks -/
example : prFile rnd64 pyJson (fun _ => .error .value) (lit "#" ++ pyJson.dumps { maxLevel := some 3 } ++ lit "\n0\tno, never\t0\t1\n1\tyes\t0\t1\n") 2
      List.reverse [lit "yes", lit "yes", lit "no, never"] [lit "yes", lit "no, never", lit "yes"] 1 none =
    .ok (lit "Rank\tGram\tName\tRankF\tRefF\tCandF\tRecall\tPrecision\tF1\n1\t1\tyes\t2\t2\t2\t0.5\t0.5\t0.5\n2\t0\tno, never\t1\t1\t1\t0\t0\t0\n") := by
  decide +kernel

end Verif
