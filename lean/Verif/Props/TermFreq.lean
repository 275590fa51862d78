import Verif.Lemmas.JsonText
import Verif.Lemmas.Cli
import Verif.Props.Eval
/-!
# Properties of the term frequency report (C79)
-/

namespace Verif
open Spec

section
variable {α : Type} [DecidableEq α]

omit [DecidableEq α] in
theorem windows_tails {n : ℕ} (hn : 0 < n) (sent : List α) :
    ((List.range (sent.length + 1 - n)).map fun i => (sent.drop i).take n) =
      sent.tails.filterMap fun t => if n ≤ t.length then some (t.take n) else none := by
  induction sent with
  | nil =>
    rw [show [].length + 1 - n = 0 by simp; omega]
    simp; omega
  | cons a s ih =>
    rw [List.tails_cons, List.filterMap_cons, ← ih]
    by_cases h : n ≤ (a :: s).length
    · rw [if_pos h]
      rw [show (a :: s).length + 1 - n = (s.length + 1 - n) + 1 by simp at h ⊢; omega, List.range_succ_eq_map]
      simp
    · rw [if_neg h]
      rw [show (a :: s).length + 1 - n = 0 by simp at h ⊢; omega, show s.length + 1 - n = 0 by simp at h; omega]
      simp

theorem makeNGramsAll_stream {n : ℕ} (hn : 0 < n) (sents : List (List α)) :
    makeNGramsAll sents n = .ok (Dict.count [] (gramStream n sents)) := by
  have key : ∀ (l : List (List α)) (d : Dict (List α) Int), nGramsLoop n l d = .ok (Dict.count d (gramStream n l)) := by
    intro l
    induction l with
    | nil => intro d; rfl
    | cons s l ih =>
      intro d
      rw [nGramsLoop, makeNGrams, if_pos (by exact_mod_cast hn)]
      simp only [Int.toNat_natCast]
      rw [ih, windows_tails hn]
      simp [gramStream, Dict.count, List.foldl_append]
  exact key sents []

/-- keys of a counter are in the order of their first occurrence -/
theorem count_order [BEq α] [LawfulBEq α] (xs : List α) : (Dict.keys (Dict.count ([] : Dict α Int) xs)).Pairwise fun a b => xs.idxOf a < xs.idxOf b := by
  have key : ∀ (xs pre : List α) (d : Dict α Int), (∀ a ∈ Dict.keys d, a ∈ pre) → (∀ a ∈ pre, a ∈ Dict.keys d) →
      (Dict.keys d).Pairwise (fun a b => pre.idxOf a < pre.idxOf b) →
      (Dict.keys (Dict.count d xs)).Pairwise fun a b => (pre ++ xs).idxOf a < (pre ++ xs).idxOf b := by
    intro xs
    induction xs with
    | nil => intro pre d _ _ h; simpa [Dict.count] using h
    | cons x xs ih =>
      intro pre d h1 h2 h3
      have := ih (pre ++ [x]) (Dict.incr d x 1) (fun a ha => by
        rcases (Dict.mem_keys_incr d x 1 a).1 ha with h | rfl
        · simp [h1 a h]
        · simp) (fun a ha => by
        refine (Dict.mem_keys_incr d x 1 a).2 ?_
        rcases List.mem_append.1 ha with h | h
        · exact Or.inl (h2 a h)
        · exact Or.inr (by simpa using h)) (by
        rw [Dict.incr, Dict.keys_set]
        have old : (Dict.keys d).Pairwise fun a b => (pre ++ [x]).idxOf a < (pre ++ [x]).idxOf b :=
          h3.imp_of_mem fun {a b} ha hb h => by
            rw [List.idxOf_append_of_mem (h1 a ha), List.idxOf_append_of_mem (h1 b hb)]; exact h
        split
        · exact old
        · rename_i hx
          refine List.pairwise_append.2 ⟨old, by simp, fun a ha b hb => ?_⟩
          rw [List.mem_singleton] at hb
          subst hb
          rw [List.idxOf_append_of_mem (h1 a ha), List.idxOf_append_of_notMem fun h => hx (h2 _ h)]
          have := List.idxOf_lt_length_of_mem (h1 a ha)
          omega)
      simpa [Dict.count] using this
  simpa using key xs [] [] (by simp [Dict.keys]) (by simp) (by simp [Dict.keys])

end

/-- sorting by decreasing value keeps the order of equal entries -/
theorem stableSort {α : Type} (f : α → Int) (pos : α → ℕ) : ∀ l : List α, l.Pairwise (fun a b => pos a < pos b) →
    (l.insertionSort fun a b => f b ≤ f a).Pairwise fun a b => f b < f a ∨ (f b = f a ∧ pos a < pos b)
  | [], _ => by simp
  | a :: l, h => by
    have ih := stableSort f pos l (List.pairwise_cons.1 h).2
    have hmem : ∀ b ∈ l.insertionSort fun a b => f b ≤ f a, pos a < pos b := fun b hb =>
      (List.pairwise_cons.1 h).1 b ((List.perm_insertionSort _ l).subset hb)
    rw [List.insertionSort_cons]
    generalize (l.insertionSort fun a b => f b ≤ f a) = m at ih hmem
    clear h
    induction m with
    | nil => simp
    | cons b m ihm =>
      rw [List.orderedInsert_cons]
      obtain ⟨i1, i2⟩ := List.pairwise_cons.1 ih
      split
      · rename_i hab
        refine List.pairwise_cons.2 ⟨fun c hc => ?_, ih⟩
        have hp := hmem c hc
        have hcb : f c ≤ f b := by
          rcases List.mem_cons.1 hc with rfl | hc
          · exact le_refl _
          · rcases i1 c hc with h | h <;> omega
        rcases lt_or_eq_of_le (le_trans hcb hab) with h | h
        · exact Or.inl h
        · exact Or.inr ⟨h, hp⟩
      · rename_i hab
        refine List.pairwise_cons.2 ⟨fun c hc => ?_, ihm i2 fun c hc => hmem c (by simp [hc])⟩
        rcases (List.mem_orderedInsert _).1 hc with rfl | hc
        · exact Or.inl (by omega)
        · exact i1 c hc

theorem mapM_names {tbl : List Ty} {g : List Int → List Str} : ∀ l : List (List Int × Int), (∀ p ∈ l, namesOf tbl p.1 = .ok (g p.1)) →
    (l.mapM fun p => match namesOf tbl p.1 with
      | .error e => (.error e : Py (List Int × Int × List Str))
      | .ok names => .ok (p.1, p.2, names)) = .ok (l.map fun p => (p.1, p.2, g p.1))
  | [], _ => rfl
  | p :: l, h => by
    rw [List.mapM_cons, mapM_names l fun q hq => h q (by simp [hq]), h p (by simp)]
    rfl

/-- the name that an id stands for; a negative id counts from the end of the table -/
def Spec.IsName (tbl : List Ty) (i : Int) (name : Str) : Prop :=
  ∃ t, t.name = name ∧ ((0 ≤ i ∧ tbl[i.toNat]? = some t) ∨ (i < 0 ∧ (-i).toNat ≤ tbl.length ∧ tbl[tbl.length - (-i).toNat]? = some t))

theorem namesOf_isName {tbl : List Ty} : ∀ {g : List Int} {names : List Str}, namesOf tbl g = .ok names → List.Forall₂ (IsName tbl) g names
  | [], names, h => by rw [namesOf] at h; cases h; exact .nil
  | i :: g, names, h => by
    rw [namesOf] at h
    cases hi : pyIndex tbl i with
    | error e => rw [hi] at h; cases h
    | ok t =>
      cases hg : namesOf tbl g with
      | error e => rw [hi, hg] at h; cases h
      | ok ns =>
        rw [hi, hg] at h
        cases h
        refine .cons ⟨t, rfl, ?_⟩ (namesOf_isName hg)
        simp only [pyIndex] at hi
        by_cases h0 : i < 0
        · rw [if_pos h0] at hi
          by_cases h1 : i + tbl.length < 0
          · rw [if_pos h1] at hi; cases hi
          · rw [if_neg h1, show (i + tbl.length).toNat = tbl.length - (-i).toNat by omega] at hi
            refine Or.inr ⟨h0, by omega, ?_⟩
            cases ht : tbl[tbl.length - (-i).toNat]? with
            | none => rw [ht] at hi; cases hi
            | some x => rw [ht] at hi; cases hi; rfl
        · rw [if_neg h0, if_neg h0] at hi
          refine Or.inl ⟨by omega, ?_⟩
          cases ht : tbl[i.toNat]? with
          | none => rw [ht] at hi; cases hi
          | some x => rw [ht] at hi; cases hi; rfl

theorem namesOf_total {tbl : List Ty} : ∀ {g : List Int}, (∀ i ∈ g, -(tbl.length : ℤ) ≤ i ∧ i < tbl.length) → ∃ names, namesOf tbl g = .ok names
  | [], _ => ⟨[], rfl⟩
  | i :: g, h => by
    obtain ⟨ns, hns⟩ := namesOf_total (g := g) fun j hj => h j (by simp [hj])
    have hi := h i (by simp)
    have : ∃ t, pyIndex tbl i = .ok t := by
      simp only [pyIndex]
      by_cases h0 : i < 0
      · rw [if_pos h0, if_neg (by omega), List.getElem?_eq_getElem (by omega)]
        exact ⟨_, rfl⟩
      · rw [if_neg h0, if_neg h0, List.getElem?_eq_getElem (by omega)]
        exact ⟨_, rfl⟩
    obtain ⟨t, ht⟩ := this
    exact ⟨_, by rw [namesOf, ht, hns]⟩

/-- C79: the report has one row for every n-gram of the encoded text, with its number of occurrences and the names of its ids; rows are
in the order of decreasing frequency, and equally frequent grams in the order of their first occurrence in the text. -/
theorem C79_rows {s : Scheme} {inp : List Str} {seqs : List (List Int)} (he : List.Forall₂ (fun line ids => s.encode line = .ok ids) inp seqs)
    (hr : ∀ ids ∈ seqs, ∀ i ∈ ids, -(s.table.length : ℤ) ≤ i ∧ i < s.table.length) {nCpus : Int} (hc : 2 ≤ nCpus)
    {done : List (Nat × Py (List (List Int))) → List (Nat × Py (List (List Int)))} (hd : ∀ r, (done r).Perm r) {n : ℕ} (hn : 0 < n) :
    ∃ rows, termFreqMain s nCpus done inp n = .ok rows ∧
      (∀ g : List Int, g ∈ rows.map (·.1) ↔ 0 < totalCount n seqs g) ∧
      (∀ row ∈ rows, row.2.1 = totalCount n seqs row.1 ∧ List.Forall₂ (IsName s.table) row.1 row.2.2) ∧
      rows.Pairwise fun a b => b.2.1 < a.2.1 ∨ (b.2.1 = a.2.1 ∧ (gramStream n seqs).idxOf a.1 < (gramStream n seqs).idxOf b.1) := by
  have hp := C56_sequential he hc (by omega : (1 : ℤ) ≤ 1000) hd
  obtain ⟨d, hd1, hd2, hd3⟩ := C57_all seqs hn
  have hstream := makeNGramsAll_stream hn seqs
  rw [hd1] at hstream
  have hde : d = Dict.count [] (gramStream n seqs) := by cases hstream; rfl
  have hmem : ∀ g f, (g, f) ∈ d ↔ 0 < totalCount n seqs g ∧ f = totalCount n seqs g := by
    intro g f
    rw [← Dict.get?_eq_some_iff hd2, hd3]
    split
    · rename_i h; simp [h]
    · rename_i h
      simp only [Option.some.injEq]
      constructor
      · intro e; exact ⟨by omega, e.symm⟩
      · intro e; exact e.2.symm
  have hrange : ∀ p ∈ d, ∀ i ∈ p.1, -(s.table.length : ℤ) ≤ i ∧ i < s.table.length := by
    intro p hpd i hi
    have hk : p.1 ∈ Dict.keys (Dict.count [] (gramStream n seqs)) := by rw [← hde]; exact List.mem_map.2 ⟨p, hpd, rfl⟩
    have := (Dict.mem_keys_count _ _ _).1 hk
    simp only [Dict.keys, List.map_nil, List.not_mem_nil, false_or, gramStream, List.mem_flatMap, List.mem_filterMap, List.mem_tails] at this
    obtain ⟨sent, hs, t, ht, h⟩ := this
    split at h
    · simp only [Option.some.injEq] at h
      rw [← h] at hi
      exact hr sent hs i (ht.subset (List.mem_of_mem_take hi))
    · cases h
  have hnames : ∀ g : List Int, ∃ names, (∀ i ∈ g, -(s.table.length : ℤ) ≤ i ∧ i < s.table.length) → namesOf s.table g = .ok names := by
    intro g
    by_cases h : ∀ i ∈ g, -(s.table.length : ℤ) ≤ i ∧ i < s.table.length
    · obtain ⟨ns, hns⟩ := namesOf_total h
      exact ⟨ns, fun _ => hns⟩
    · exact ⟨[], fun h' => absurd h' h⟩
  choose nm hnm using hnames
  have hperm := List.perm_insertionSort (fun a b : List Int × Int => b.2 ≤ a.2) d
  refine ⟨(d.insertionSort fun a b => b.2 ≤ a.2).map fun p => (p.1, p.2, nm p.1), ?_, ?_, ?_, ?_⟩
  · simp only [termFreqMain, hp, Gen.toList, hd1]
    have hall := mapM_names (d.insertionSort fun a b => b.2 ≤ a.2) (fun p hpd => hnm p.1 (hrange p (hperm.subset hpd)))
    convert hall using 2
    funext p
    cases namesOf s.table p.1 <;> rfl
  · intro g
    rw [List.map_map, List.mem_map]
    constructor
    · rintro ⟨p, h1, rfl⟩
      exact ((hmem p.1 p.2).1 (hperm.subset h1)).1
    · intro h
      exact ⟨(g, totalCount n seqs g), hperm.symm.subset ((hmem _ _).2 ⟨h, rfl⟩), rfl⟩
  · intro row hrow
    obtain ⟨p, h1, rfl⟩ := List.mem_map.1 hrow
    exact ⟨((hmem p.1 p.2).1 (hperm.subset h1)).2, namesOf_isName (hnm p.1 (hrange p (hperm.subset h1)))⟩
  · rw [List.pairwise_map]
    refine stableSort (fun p : List Int × Int => p.2) (fun p => (gramStream n seqs).idxOf p.1) d ?_
    have := count_order (gramStream n seqs)
    rw [← hde, Dict.keys, List.pairwise_map] at this
    exact this

/-- C79: with a word, char or BPE vocabulary the report is made for every text. -/
theorem C79_total {k : Kind} (hk : k = .word ∨ k = .char ∨ k = .bpe) {tbl : List Ty} {s : Scheme} (hs : Scheme.make k tbl = .ok s)
    (hi : Indexed tbl) (inp : List Str) {nCpus : Int} (hc : 2 ≤ nCpus)
    {done : List (Nat × Py (List (List Int))) → List (Nat × Py (List (List Int)))} (hd : ∀ r, (done r).Perm r) {n : ℕ} (hn : 0 < n) :
    ∃ seqs rows, List.Forall₂ (fun line ids => s.encode line = .ok ids) inp seqs ∧ termFreqMain s nCpus done inp n = .ok rows ∧
      (∀ g : List Int, g ∈ rows.map (·.1) ↔ 0 < totalCount n seqs g) ∧
      (∀ row ∈ rows, row.2.1 = totalCount n seqs row.1 ∧ List.Forall₂ (IsName tbl) row.1 row.2.2) ∧
      rows.Pairwise fun a b => b.2.1 < a.2.1 ∨ (b.2.1 = a.2.1 ∧ (gramStream n seqs).idxOf a.1 < (gramStream n seqs).idxOf b.1) := by
  have hrange : s.table = tbl ∧ ∀ line, ∃ ids, s.encode line = .ok ids ∧ ∀ i ∈ ids, 0 ≤ i ∧ i < tbl.length := by
    rcases hk with rfl | rfl | rfl
    · exact ⟨(make_word_ok hs).1, fun l => C05_ids_in_range_word_char (Or.inl rfl) hs l⟩
    · exact ⟨(make_char_ok hs).1, fun l => C05_ids_in_range_word_char (Or.inr rfl) hs l⟩
    · exact ⟨(make_bpe_ok hs).1, fun l => C05_ids_in_range_bpe hs hi l⟩
  obtain ⟨rfl, hl⟩ := hrange
  choose h hh using hl
  have hf : List.Forall₂ (fun line ids => s.encode line = .ok ids) inp (inp.map h) := by
    rw [List.forall₂_map_right_iff]
    exact List.forall₂_same.2 fun a _ => (hh a).1
  obtain ⟨rows, h1, h2⟩ := C79_rows hf (fun ids hids i hi => by
    obtain ⟨a, _, rfl⟩ := List.mem_map.1 hids
    have := (hh a).2 i hi
    omega) hc hd hn
  exact ⟨inp.map h, rows, hf, h1, h2⟩

/-- C79: the file that is written has one line per row, each a JSON array from which the ids, the frequency and the names of the row
are read back, whatever characters the names have. -/
theorem C79_file {s : Scheme} {nCpus : Int} {done : List (Nat × Py (List (List Int))) → List (Nat × Py (List (List Int)))} {inp : List Str} {n : ℤ}
    {rows : List (List Int × Int × List Str)} (h : termFreqMain s nCpus done inp n = .ok rows) :
    ∃ text ls, termFreqText s nCpus done inp n = .ok text ∧ Lines text ls ∧
      List.Forall₂ (fun (row : List Int × Int × List Str) line =>
        readJson line = some (.arr [.arr (row.1.map .int), .int row.2.1, .arr (row.2.2.map .str)])) rows ls := by
  refine ⟨_, rows.map termFreqLine, by rw [termFreqText, h], ?_, ?_⟩
  · clear h
    induction rows with
    | nil => exact .nil
    | cons r rows ih =>
      rw [List.flatMap_cons, List.append_assoc, List.map_cons]
      refine .lf ⟨fun hm => ?_, fun hm => ?_⟩ ih
      · have := JTree.print_ge _ _ hm; omega
      · have := JTree.print_ge _ _ hm; omega
  · rw [List.forall₂_map_right_iff]
    exact List.forall₂_same.2 fun r _ => readJson_print _

/-- C79: orders that are not positive are refused, for a text that is not empty. -/
theorem C79_nonpositive {s : Scheme} {line : Str} {inp : List Str} {seqs : List (List Int)}
    (he : List.Forall₂ (fun line ids => s.encode line = .ok ids) (line :: inp) seqs) {nCpus : Int} (hc : 2 ≤ nCpus)
    {done : List (Nat × Py (List (List Int))) → List (Nat × Py (List (List Int)))} (hd : ∀ r, (done r).Perm r) {n : ℤ} (hn : n ≤ 0) :
    termFreqMain s nCpus done (line :: inp) n = .error .assertion := by
  have hp := C56_sequential he hc (by omega : (1 : ℤ) ≤ 1000) hd
  cases he with
  | cons h1 h2 => simp only [termFreqMain, hp, Gen.toList, makeNGramsAll, nGramsLoop, C57_nonpositive _ hn]

/-- C79: a line that cannot be encoded is not passed over: no table is written, and the exception of such a line is raised. -/
theorem C79_exception {s : Scheme} {inp : List Str} (he : ∃ line ∈ inp, ∃ e, s.encode line = .error e) {nCpus : Int} (hc : 2 ≤ nCpus)
    {done : List (Nat × Py (List (List Int))) → List (Nat × Py (List (List Int)))} (hd : ∀ r, (done r).Perm r) (n : ℤ) :
    ∃ e, termFreqText s nCpus done inp n = .error e ∧ ∃ line ∈ inp, s.encode line = .error e := by
  obtain ⟨e, h1, h2⟩ := C56_exception he hc (by omega : (1 : ℤ) ≤ 1000) hd
  exact ⟨e, by simp only [termFreqText, termFreqMain, Gen.toList, h1], h2⟩

/-- a byte scheme cannot encode a lone surrogate -/
example : (match Scheme.make .byte [] with
    | .error _ => false
    | .ok s => decide (s.encode [0xD800] = .error .unicode)) = true := by decide +kernel

/-- two lines; `a b` and `b a` occur twice, and `a b` first; a name with a quote -/
example : (match Scheme.make .word (exTable 1 ["a", "b", "q\"t"]) with
    | .error _ => false
    | .ok s => match termFreqText s 2 List.reverse [lit "a b a", lit "a b a q\"t"] 2 with
      | .error _ => false
      | .ok t => decide (t = lit "[[6, 7], 2, [\"a\", \"b\"]]\n[[7, 6], 2, [\"b\", \"a\"]]\n[[6, 8], 1, [\"a\", \"q\\\"t\"]]\n")) = true := by decide +kernel

end Verif
