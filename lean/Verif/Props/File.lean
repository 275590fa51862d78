import Verif.Lemmas.Json
import Verif.Props.Learn
/-!
# Properties C12-C14, C31, C32: vocabulary files and frequency files

`J` is the JSON codec of the header line; `JsonLaws J` (Verif/Lemmas/File.lean) is what is assumed of it, and it holds for
the concrete codec of `Verif/Model/Json.lean`.
-/

namespace Verif
open Spec

/-! ## C12 -/

/-- text of a written table -/
theorem writeOut_text {J : Json} {sch : Option Str} {tbl : List Ty} (hi : Indexed tbl) (hne : tbl ≠ [])
    (hn : ∀ t ∈ tbl, NameOK t.name) (hJ : JsonLaws J) (hsch : ∀ n, sch = some n → ∀ c ∈ n, 97 ≤ c ∧ c ≤ 122) :
    ∃ h : Header, h.Plain ∧ h.scheme = sch ∧ h.maxLevel = maxLevel tbl ∧ writeOut J sch tbl =
      .ok (((35 :: J.dumps h) :: tbl.map Ty.format).flatMap (· ++ [10])) := by
  obtain ⟨m, hm⟩ := maxLevel_ne_none hne
  have hp : ({ scheme := sch, maxLevel := some m } : Header).Plain := ⟨rfl, hsch⟩
  refine ⟨{ scheme := sch, maxLevel := some m }, hp, rfl, hm.symm, ?_⟩
  have hw := writeRows_ok tbl 0 (fun j t hj => by rw [hi j t hj]; omega)
  simp only [writeOut, hm, hw]
  rw [dropSurrogates_id]
  · simp [List.flatMap_map]
  · intro c hc
    simp only [List.cons_append, List.mem_cons, List.mem_append, List.mem_flatMap, List.not_mem_nil, or_false] at hc
    have small : ∀ c, c ≤ 126 → isSurrogate c = false := by
      intro c hc; simp only [isSurrogate, decide_eq_false_iff_not]; omega
    rcases hc with rfl | hc | rfl | ⟨t, ht, hc | rfl⟩
    · decide
    · exact small c (hJ.ascii _ hp c hc).2
    · decide
    · exact (format_chars (hn t ht) c hc).2.2
    · decide

/-- reading a written file -/
theorem readVocab_written {J : Json} {h : Header} {tbl : List Ty} (hJ : JsonLaws J) (hp : h.Plain) (hi : Indexed tbl) (hk : KidsEarlier tbl)
    (hn : ∀ t ∈ tbl, NameOK t.name) :
    readVocab J (((35 :: J.dumps h) :: tbl.map Ty.format).flatMap (· ++ [10])) = .ok (tbl, some h) := by
  obtain ⟨body, hb⟩ := hJ.shape h hp
  have hchars : ∀ l ∈ (35 :: J.dumps h) :: tbl.map Ty.format, 10 ∉ l ∧ 13 ∉ l := by
    intro l hl
    rcases List.mem_cons.1 hl with rfl | hl
    · simp only [List.mem_cons, not_or]
      exact ⟨⟨by omega, fun hc => by have := hJ.ascii _ hp _ hc; omega⟩, ⟨by omega, fun hc => by have := hJ.ascii _ hp _ hc; omega⟩⟩
    · obtain ⟨t, ht, rfl⟩ := List.mem_map.1 hl
      exact ⟨fun hc => (format_chars (hn t ht) _ hc).1 rfl, fun hc => (format_chars (hn t ht) _ hc).2.1 rfl⟩
  have hcr : 13 ∉ ((35 :: J.dumps h) :: tbl.map Ty.format).flatMap (· ++ [10]) := by
    simp only [List.mem_flatMap, not_exists, not_and]
    intro l hl hc
    rcases List.mem_append.1 hc with hc | hc
    · exact (hchars l hl).2 hc
    · simp at hc
  have hl0 : strip (35 :: J.dumps h) = 35 :: J.dumps h := by
    apply strip_eq_self
    · intro c hc; simp at hc; subst hc; decide
    · intro c hc
      rw [hb, ← List.cons_append, List.getLast?_concat] at hc
      cases hc; decide
  simp only [readVocab]
  rw [univNewlines_id hcr, fileLines_rows _ (fun l hl => (hchars l hl).1)]
  simp only [List.map_cons, hl0]
  have hs : startsWith [35, 123] (35 :: J.dumps h) = true := by
    rw [hb]; rfl
  simp only [hs, if_true, List.drop_succ_cons, List.drop_zero, hJ.round h hp]
  have := readTypes_format tbl hi hk (fun t ht hc => (hn t ht _ hc).1 rfl) (List.map strip (tbl.map Ty.format)).length tbl [] rfl
  rw [List.map_map] at this ⊢
  have e : (strip ∘ Ty.format) = fun t => strip t.format := rfl
  rw [e] at this ⊢
  rw [this]

/-- C12: writing a well-formed table and reading the file restores the table. -/
theorem C12_vocab_round_trip {J : Json} (hJ : JsonLaws J) (sch : Option Str)
    (hsch : ∀ n, sch = some n → ∀ c ∈ n, 97 ≤ c ∧ c ≤ 122) {tbl : List Ty} (hne : tbl ≠ []) (hi : Indexed tbl) (hk : KidsEarlier tbl)
    (hn : ∀ t ∈ tbl, ∀ c ∈ t.name, c ≠ 9 ∧ c ≠ 10 ∧ c ≠ 13 ∧ ¬ (0xD800 ≤ c ∧ c ≤ 0xDFFF)) :
    ∃ text h, writeOut J sch tbl = .ok text ∧ readVocab J text = .ok (tbl, some h) := by
  have hn' : ∀ t ∈ tbl, NameOK t.name := fun t ht c hc => by
    obtain ⟨a, b, c', d⟩ := hn t ht c hc
    exact ⟨a, b, c', by simpa [isSurrogate] using d⟩
  obtain ⟨h, hp, _, _, hw⟩ := writeOut_text (sch := sch) hi hne hn' hJ hsch
  exact ⟨_, h, hw, readVocab_written hJ hp hi hk hn'⟩

/-- table of the examples: two characters and the pair -/
def exFileTbl : List Ty := [⟨lit "a", 0, 0, 3, []⟩, ⟨lit "b c", 0, 1, -1, []⟩,
  ⟨lit "ab c", 1, 2, 2, [⟨lit "a", 0, 0, 3, []⟩, ⟨lit "b c", 0, 1, -1, []⟩]⟩]
example : writeOut pyJson (some (lit "bpe")) exFileTbl =
    .ok (lit "#{\"version\": \"0.2\", \"scheme\": \"bpe\", \"max_level\": 1}\n0\ta\t0\t3\t\n1\tb c\t0\t-1\t\n2\tab c\t1\t2\t0 1\n") := by
  decide +kernel
example : (readVocab pyJson (lit "#{\"version\": \"0.2\", \"scheme\": \"bpe\", \"max_level\": 1}\n0\ta\t0\t3\t\n1\tb c\t0\t-1\t\n2\tab c\t1\t2\t0 1\n")).toOption.map (·.1) =
    some exFileTbl := by decide +kernel
example : JsonLaws pyJson := pyJson_laws

/-- C12 needs a type: the empty table is refused (`max` of no levels) -/
theorem C12_empty_refused (J : Json) (scheme : Option Str) : writeOut J scheme [] = .error .value := rfl

/-- C12: a table with an entry out of place is refused. -/
theorem C12_out_of_place_refused (J : Json) (sch : Option Str) {tbl : List Ty} (h : ¬ Indexed tbl) :
    writeOut J sch tbl = .error .assertion := by
  simp only [Indexed, not_forall] at h
  obtain ⟨i, t, ht, hne⟩ := h
  have hnil : tbl ≠ [] := by rintro rfl; simp at ht
  obtain ⟨m, hm⟩ := maxLevel_ne_none hnil
  simp only [writeOut, hm, writeRows_error tbl 0 ⟨i, t, ht, by omega⟩]

/-- C12: the restriction on names is needed: a tab, a line feed, a carriage return or a surrogate in a name is not
restored, whatever the rest of the (one-entry) table. -/
theorem C12_names_needed (J : Json) {c : Nat} (hc : c = 9 ∨ c = 10 ∨ c = 13 ∨ (0xD800 ≤ c ∧ c ≤ 0xDFFF)) :
    ∃ text, writeOut J none [⟨[97, c, 98], 0, 0, 1, []⟩] = .ok text ∧
      ∀ h, readVocab J text ≠ .ok ([⟨[97, c, 98], 0, 0, 1, []⟩], h) := by
  have hw : writeOut J none [⟨[97, c, 98], 0, 0, 1, []⟩] = .ok (dropSurrogates (35 :: J.dumps { maxLevel := some 0 } ++
      10 :: ([48, 9, 97, c, 98, 9, 48, 9, 49, 9] ++ [10]))) := rfl
  refine ⟨_, hw, ?_⟩
  -- every name read is free of these characters
  have hname : ∀ (n : Nat) (lines : List Str) (done t : List Ty), readTypes n done lines = .ok t →
      (∀ u ∈ done, c ∉ u.name) → (∀ l ∈ lines, c = 9 ∨ c ∉ l) → ∀ u ∈ t, c ∉ u.name := by
    intro n lines
    induction lines with
    | nil => intro done t h h1 _; simp [readTypes] at h; subst h; exact h1
    | cons line lines ih =>
      intro done t h h1 h2
      simp only [readTypes] at h
      cases hp : parseType (done.map some ++ List.replicate (n - done.length) none) line with
      | error e => simp [hp] at h
      | ok r =>
        have hr : c ∉ r.name := by
          have hcol : ∀ cs, splitOn (· == 9) (strip line) = cs → ∀ x ∈ cs, c ∉ x := by
            rintro cs rfl x hx hcx
            rcases h2 line (by simp) with h9 | h9
            · have := splitOn_pieces _ x hx c hcx
              subst h9; simp at this
            · apply h9
              obtain ⟨g, h', he, _, _⟩ := strip_decomp line
              rw [he]
              simp only [List.mem_append]
              exact Or.inl (Or.inr (mem_of_mem_splitOn hx hcx))
          unfold parseType at hp
          split at hp
          · rename_i c0 c1 c2 c3 more heq
            have hc1 := hcol _ heq c1 (by simp)
            suffices r.name = c1 by rw [this]; exact hc1
            clear hcol heq h ih
            split at hp
            · cases hp
            · split at hp
              · cases hp
              · split at hp
                · cases hp
                · split at hp
                  · cases hp; rfl
                  · rename_i c4 _
                    by_cases hc4 : c4.isEmpty = true
                    · rw [if_pos hc4] at hp; cases hp; rfl
                    · rw [if_neg hc4] at hp
                      split at hp
                      · cases hp
                      · split at hp
                        · split at hp
                          · cases hp
                          · cases hp; rfl
                        · cases hp
          · cases hp
        simp only [hp] at h
        split at h
        · split at h
          · cases h
          · refine ih _ t h ?_ (fun l hl => h2 l (by simp [hl]))
            intro u hu
            rcases List.mem_append.1 hu with hu | hu
            · exact h1 u hu
            · simp at hu; subst hu; exact hr
        · cases h
  intro hd hread
  have hlines : ∀ l ∈ (fileLines (univNewlines (dropSurrogates (35 :: J.dumps { maxLevel := some 0 } ++
      10 :: ([48, 9, 97, c, 98, 9, 48, 9, 49, 9] ++ [10]))))).map strip, c = 9 ∨ c ∉ l := by
    intro l hl
    obtain ⟨l', hl', rfl⟩ := List.mem_map.1 hl
    rcases hc with hc | hc
    · exact Or.inl hc
    · right
      intro hcl
      have hcl' : c ∈ l' := by
        obtain ⟨g, h', he, _, _⟩ := strip_decomp l'
        rw [he]; simp only [List.mem_append]; exact Or.inl (Or.inr hcl)
      have hsp : l' ∈ splitOn (· == 10) (univNewlines (dropSurrogates (35 :: J.dumps { maxLevel := some 0 } ++
          10 :: ([48, 9, 97, c, 98, 9, 48, 9, 49, 9] ++ [10])))) := by
        simp only [fileLines] at hl'
        split at hl'
        · exact (List.dropLast_sublist _).subset hl'
        · exact hl'
      have hin := mem_of_mem_splitOn hsp hcl'
      rcases hc with rfl | rfl | hs
      · have := splitOn_pieces _ l' hsp 10 hcl'; simp at this
      · have hno : ∀ s : Str, 13 ∉ univNewlines s := by
          intro s
          induction s using univNewlines.induct with
          | case1 r ih => simp [univNewlines, ih]
          | case2 r _ ih => rw [univNewlines]; simp [ih]; assumption
          | case3 c r h1 h2 ih =>
            rw [univNewlines]
            · simp only [List.mem_cons, not_or]
              exact ⟨fun e => h2 e.symm, ih⟩
            · assumption
            · assumption
          | case4 => simp [univNewlines]
        exact hno _ hin
      · have hsub : ∀ s : Str, ∀ d ∈ univNewlines s, d ∈ s ∨ d = 10 := by
          intro s
          induction s using univNewlines.induct with
          | case1 r ih => intro d hd'; simp only [univNewlines, List.mem_cons] at hd' ⊢; rcases hd' with h | h
                          · exact Or.inr h
                          · rcases ih d h with h | h <;> simp [h]
          | case2 r _ ih => intro d hd'; rw [univNewlines] at hd'
                            · simp only [List.mem_cons] at hd' ⊢; rcases hd' with h | h
                              · exact Or.inr h
                              · rcases ih d h with h | h <;> simp [h]
                            · assumption
          | case3 c r h1 h2 ih =>
            intro d hd'
            rw [univNewlines] at hd'
            · simp only [List.mem_cons] at hd' ⊢
              rcases hd' with h | h
              · exact Or.inl (Or.inl h)
              · rcases ih d h with h | h <;> simp [h]
            · assumption
            · assumption
          | case4 => simp [univNewlines]
        rcases hsub _ c hin with h | h
        · have := (List.mem_filter.1 h).2
          simp [isSurrogate, hs] at this
        · omega
  simp only [readVocab] at hread
  have hfin : ∀ n ls t, (∀ l ∈ ls, c = 9 ∨ c ∉ l) → readTypes n [] ls = .ok t → t ≠ [⟨[97, c, 98], 0, 0, 1, []⟩] := by
    intro n ls t hl hr e
    have := hname n ls [] t hr (by simp) hl ⟨[97, c, 98], 0, 0, 1, []⟩ (by simp [e])
    simp at this
  split at hread
  · cases hread
  · rename_i l0 ls heq
    rw [heq] at hlines
    split at hread
    · split at hread
      · cases hread
      · split at hread
        · cases hread
        · rename_i hr; cases hread
          exact hfin _ _ _ (fun l hl => hlines l (by simp [hl])) hr rfl
    · split at hread
      · cases hread
      · rename_i hr; cases hread
        exact hfin _ _ _ hlines hr rfl

/-! ## C13 -/

/-- C13: saving and loading gives the same scheme: same kind, table, dictionary and trie (hence the same encode and decode
on all inputs).  Missing: schemes with an empty table (only possible for class), see `C13_empty_class_refuted`. -/
theorem C13_save_load_partial {J : Json} (hJ : JsonLaws J) {k : Kind} {tbl : List Ty} {s : Scheme}
    (hs : Scheme.make k tbl = .ok s) (hne : s.table ≠ []) (hi : Indexed s.table) (hk : KidsEarlier s.table)
    (hn : ∀ t ∈ s.table, ∀ c ∈ t.name, c ≠ 9 ∧ c ≠ 10 ∧ c ≠ 13 ∧ ¬ (0xD800 ≤ c ∧ c ≤ 0xDFFF)) :
    ∃ text, s.save J = .ok text ∧ loadScheme J text = .ok s := by
  have hn' : ∀ t ∈ s.table, NameOK t.name := fun t ht c hc => by
    obtain ⟨a, b, c', d⟩ := hn t ht c hc
    exact ⟨a, b, c', by simpa [isSurrogate] using d⟩
  have hlow : ∀ k : Kind, ∀ c ∈ k.name, 97 ≤ c ∧ c ≤ 122 := by intro k; cases k <;> decide
  obtain ⟨h, hpl, hsch, _, hw⟩ := writeOut_text (sch := some s.kind.name) hi hne hn' hJ
    (fun n hn => by cases hn; exact hlow s.kind)
  have ha := hpl.1
  refine ⟨_, hw, ?_⟩
  have hr := readVocab_written (h := h) hJ hpl hi hk hn'
  have hreg : ∀ k : Kind, registry k.name = .ok k := by intro k; cases k <;> decide
  have hkind : headerKind (some h) = .ok s.kind := by
    simp only [headerKind, ha, if_true, hsch, hreg]
  simp only [loadScheme, hr, hkind]
  -- rebuilding the scheme from its own table
  cases k with
  | word => obtain ⟨h1, h2, _⟩ := make_word_ok hs; rw [h1, h2]; exact hs
  | char => obtain ⟨h1, h2, _⟩ := make_char_ok hs; rw [h1, h2]; exact hs
  | bpe => obtain ⟨h1, h2, _⟩ := make_bpe_ok hs; rw [h1, h2]; exact hs
  | clasz => obtain ⟨h1, h2, _⟩ := mkInvertible_ok (k := .clasz) hs; rw [h1, h2]; exact hs
  | byte =>
    simp only [Scheme.make] at hs
    obtain ⟨h1, h2, _⟩ := mkInvertible_ok hs
    rw [h2]
    simp only [Scheme.make]
    have : s.table.isEmpty = false := by cases ht : s.table with | nil => exact absurd ht hne | cons => rfl
    rw [this]
    simp only [Bool.false_eq_true, if_false]
    rw [h1]; exact hs

/-- the level in the header is the greatest level of the table -/
theorem maxLevel_spec {tbl : List Ty} {m : Int} (h : maxLevel tbl = some m) : (∃ t ∈ tbl, t.level = m) ∧ ∀ t ∈ tbl, t.level ≤ m := by
  induction tbl generalizing m with
  | nil => simp [maxLevel] at h
  | cons t ts ih =>
    simp only [maxLevel] at h
    split at h
    · rename_i hn
      cases h
      have : ts = [] := by
        by_contra hne
        obtain ⟨m, hm⟩ := maxLevel_ne_none hne
        rw [hn] at hm; cases hm
      subst this
      simp
    · rename_i m' hm
      cases h
      obtain ⟨⟨u, hu, e⟩, hle⟩ := ih hm
      refine ⟨?_, ?_⟩
      · by_cases hc : t.level ≤ m'
        · exact ⟨u, by simp [hu], by omega⟩
        · exact ⟨t, by simp, by omega⟩
      · intro v hv
        rcases List.mem_cons.1 hv with rfl | hv
        · omega
        · have := hle v hv; omega

/-- C13: the header of a written file carries the scheme name and the greatest level of the table. -/
theorem C13_header {J : Json} (hJ : JsonLaws J) (sch : Option Str)
    (hsch : ∀ n, sch = some n → ∀ c ∈ n, 97 ≤ c ∧ c ≤ 122) {tbl : List Ty} (hne : tbl ≠ []) (hi : Indexed tbl) (hk : KidsEarlier tbl)
    (hn : ∀ t ∈ tbl, ∀ c ∈ t.name, c ≠ 9 ∧ c ≠ 10 ∧ c ≠ 13 ∧ ¬ (0xD800 ≤ c ∧ c ≤ 0xDFFF)) :
    ∃ text h m, writeOut J sch tbl = .ok text ∧ readVocab J text = .ok (tbl, some h) ∧ h.scheme = sch ∧ h.maxLevel = some m ∧
      (∃ t ∈ tbl, t.level = m) ∧ ∀ t ∈ tbl, t.level ≤ m := by
  have hn' : ∀ t ∈ tbl, NameOK t.name := fun t ht c hc => by
    obtain ⟨a, b, c', d⟩ := hn t ht c hc
    exact ⟨a, b, c', by simpa [isSurrogate] using d⟩
  obtain ⟨h, hp, h1, h2, hw⟩ := writeOut_text (sch := sch) hi hne hn' hJ hsch
  obtain ⟨m, hm⟩ := maxLevel_ne_none hne
  exact ⟨_, h, m, hw, readVocab_written hJ hp hi hk hn', h1, h2.trans hm, maxLevel_spec hm⟩

/-- C13: loading by scheme name: 'subword' is the bpe scheme, the other names are those of the schemes, and an unknown name
raises KeyError. -/
theorem C13_names {J : Json} (hJ : JsonLaws J) {n : Str} (hlow : ∀ c ∈ n, 97 ≤ c ∧ c ≤ 122) {tbl : List Ty} (hne : tbl ≠ []) (hi : Indexed tbl)
    (hk : KidsEarlier tbl) (hn : ∀ t ∈ tbl, ∀ c ∈ t.name, c ≠ 9 ∧ c ≠ 10 ∧ c ≠ 13 ∧ ¬ (0xD800 ≤ c ∧ c ≤ 0xDFFF)) :
    ∃ text, writeOut J (some n) tbl = .ok text ∧
      (n = lit "char" → loadScheme J text = Scheme.make .char tbl) ∧ (n = lit "word" → loadScheme J text = Scheme.make .word tbl) ∧
      (n = lit "bpe" ∨ n = lit "subword" → loadScheme J text = Scheme.make .bpe tbl) ∧
      (n = lit "class" → loadScheme J text = Scheme.make .clasz tbl) ∧ (n = lit "byte" → loadScheme J text = Scheme.make .byte tbl) ∧
      (n ∉ [lit "char", lit "word", lit "bpe", lit "subword", lit "class", lit "byte"] → loadScheme J text = .error .key) := by
  have hn' : ∀ t ∈ tbl, NameOK t.name := fun t ht c hc => by
    obtain ⟨a, b, c', d⟩ := hn t ht c hc
    exact ⟨a, b, c', by simpa [isSurrogate] using d⟩
  obtain ⟨h, hp, h1, _, hw⟩ := writeOut_text (sch := some n) hi hne hn' hJ (fun m hm => by cases hm; exact hlow)
  have hl : loadScheme J (((35 :: J.dumps h) :: tbl.map Ty.format).flatMap (· ++ [10])) = match registry n with
      | .error e => .error e
      | .ok k => Scheme.make k tbl := by
    simp only [loadScheme, readVocab_written hJ hp hi hk hn', headerKind, hp.1, if_true, h1]
    rfl
  refine ⟨_, hw, ?_, ?_, ?_, ?_, ?_, ?_⟩
  · rintro rfl; rw [hl]; rfl
  · rintro rfl; rw [hl]; rfl
  · rintro (rfl | rfl) <;> rw [hl] <;> rfl
  · rintro rfl; rw [hl]; rfl
  · rintro rfl; rw [hl]; rfl
  · intro hm
    simp only [List.mem_cons, List.not_mem_nil, or_false, not_or] at hm
    obtain ⟨a1, a2, a3, a4, a5, a6⟩ := hm
    have : registry n = .error .key := by
      simp only [registry, if_neg a1, if_neg a2, if_neg a3, if_neg a4, if_neg a5, if_neg a6]
    rw [hl, this]

/-- C13, files without a scheme name (written by older versions): the scheme is found from the greatest level. -/
theorem C13_old_files {J : Json} (hJ : JsonLaws J) {tbl : List Ty} (hi : Indexed tbl) (hk : KidsEarlier tbl)
    (hn : ∀ t ∈ tbl, ∀ c ∈ t.name, c ≠ 9 ∧ c ≠ 10 ∧ c ≠ 13 ∧ ¬ (0xD800 ≤ c ∧ c ≤ 0xDFFF)) {m : Int}
    (hm : ∃ t ∈ tbl, t.level = m) (hle : ∀ t ∈ tbl, t.level ≤ m) :
    ∃ text, writeOut J none tbl = .ok text ∧
      (m = 0 → loadScheme J text = Scheme.make .char tbl) ∧ (m = 1 → loadScheme J text = Scheme.make .bpe tbl) ∧
      (m = 2 → loadScheme J text = Scheme.make .word tbl) ∧ (m = 3 → loadScheme J text = Scheme.make .clasz tbl) ∧
      (4 ≤ m → loadScheme J text = .error .assertion) := by
  have hne : tbl ≠ [] := by rintro rfl; simp at hm
  have hn' : ∀ t ∈ tbl, NameOK t.name := fun t ht c hc => by
    obtain ⟨a, b, c', d⟩ := hn t ht c hc
    exact ⟨a, b, c', by simpa [isSurrogate] using d⟩
  obtain ⟨h, hp, h1, h2, hw⟩ := writeOut_text (sch := none) hi hne hn' hJ (fun m hm => by cases hm)
  obtain ⟨m', hm'⟩ := maxLevel_ne_none hne
  have hmm : m' = m := by
    obtain ⟨⟨t, ht, e⟩, hle'⟩ := maxLevel_spec hm'
    obtain ⟨u, hu, e'⟩ := hm
    have := hle t ht
    have := hle' u hu
    omega
  subst hmm
  rw [hm'] at h2
  have hl : loadScheme J (((35 :: J.dumps h) :: tbl.map Ty.format).flatMap (· ++ [10])) =
      match (if m' < 4 then pyIndex [Kind.char, Kind.bpe, Kind.word, Kind.clasz] m' else .error .assertion : Py Kind) with
      | .error e => .error e
      | .ok k => Scheme.make k tbl := by
    simp only [loadScheme, readVocab_written hJ hp hi hk hn', headerKind, hp.1, if_true, h1, h2]
    rfl
  refine ⟨_, hw, ?_, ?_, ?_, ?_, ?_⟩
  · rintro rfl; rw [hl]; rfl
  · rintro rfl; rw [hl]; rfl
  · rintro rfl; rw [hl]; rfl
  · rintro rfl; rw [hl]; rfl
  · intro h4; rw [hl, if_neg (by omega)]

example : (readVocab pyJson (lit "#{\"version\": \"0.2\", \"max_level\": 1}\n0\ta\t0\t3\t\n1\tb c\t0\t-1\t\n2\tab c\t1\t2\t0 1\n")).toOption.map
    (fun r => (r.1, headerKind r.2)) = some (exFileTbl, .ok .bpe) := by decide +kernel

/-- the word scheme of the examples, saved and loaded -/
example : (match Scheme.make .word (exTable Level.word ["hello", "world"]) with
    | .error e => (.error e : Py Scheme)
    | .ok s => match s.save pyJson with
      | .error e => .error e
      | .ok text => loadScheme pyJson text) = Scheme.make .word (exTable Level.word ["hello", "world"]) := by rfl

/-- C13 is false for the class scheme learned from no data: its table is empty and saving it raises. -/
theorem C13_empty_class_refuted (J : Json) : ∃ s, learnRaw accExact .clasz [] 0 0 none = .ok s.table ∧
    Scheme.make .clasz s.table = .ok s ∧ s.save J = .error .value :=
  ⟨⟨.clasz, [], [], Trie.empty⟩, rfl, rfl, rfl⟩

/-- C13 fails for class labels with an inner tab (accepted by learning, and one of the characters excluded above):
the saved file does not load. -/
theorem C13_tab_label_refuted {J : Json} (hJ : JsonLaws J) : ∃ (data : List Str) (s : Scheme) (text : Str),
    learnRaw accExact .clasz data 0 0 none = .ok s.table ∧ Scheme.make .clasz s.table = .ok s ∧ s.save J = .ok text ∧
    loadScheme J text = .error .value := by
  have hpl : ({ scheme := some (lit "class"), maxLevel := some 0 } : Header).Plain := by
    refine ⟨rfl, fun n hn => ?_⟩
    cases hn; decide
  refine ⟨[lit "a\tb"], ⟨.clasz, [⟨lit "a\tb", 0, 0, 1, []⟩], [(lit "a\tb", 0)], Trie.empty⟩,
    (35 :: J.dumps { scheme := some (lit "class"), maxLevel := some 0 }) ++ 10 :: (lit "0\ta\tb\t0\t1\t\n"), by decide, rfl, ?_, ?_⟩
  · have : dropSurrogates (35 :: J.dumps { scheme := some (lit "class"), maxLevel := some 0 } ++
        10 :: (lit "0\ta\tb\t0\t1\t\n")) = (35 :: J.dumps { scheme := some (lit "class"), maxLevel := some 0 }) ++
        10 :: (lit "0\ta\tb\t0\t1\t\n") := by
      apply dropSurrogates_id
      intro c hc
      rcases List.mem_append.1 hc with hc | hc
      · rcases List.mem_cons.1 hc with rfl | hc
        · decide
        · have := hJ.ascii _ hpl c hc
          simp only [isSurrogate, decide_eq_false_iff_not]; omega
      · have hall : ∀ c ∈ 10 :: (lit "0\ta\tb\t0\t1\t\n"), isSurrogate c = false := by decide
        exact hall c hc
    exact congrArg Except.ok this
  · obtain ⟨body, hb⟩ := hJ.shape { scheme := some (lit "class"), maxLevel := some 0 } hpl
    have hasc := hJ.ascii { scheme := some (lit "class"), maxLevel := some 0 } hpl
    have hround := hJ.round { scheme := some (lit "class"), maxLevel := some 0 } hpl
    generalize J.dumps { scheme := some (lit "class"), maxLevel := some 0 } = d at hb hasc hround
    have htext : (35 :: d) ++ 10 :: (lit "0\ta\tb\t0\t1\t\n") = [35 :: d, lit "0\ta\tb\t0\t1\t"].flatMap (· ++ [10]) := by
      simp [show lit "0\ta\tb\t0\t1\t\n" = lit "0\ta\tb\t0\t1\t" ++ [10] by decide]
    have hl0 : strip (35 :: d) = 35 :: d := by
      apply strip_eq_self
      · intro c hc; simp at hc; subst hc; decide
      · intro c hc
        rw [hb, ← List.cons_append, List.getLast?_concat] at hc
        cases hc; decide
    have hchars : ∀ l ∈ [35 :: d, lit "0\ta\tb\t0\t1\t"], 10 ∉ l ∧ 13 ∉ l := by
      intro l hl
      rcases List.mem_cons.1 hl with rfl | hl
      · simp only [List.mem_cons, not_or]
        exact ⟨⟨by omega, fun hc => by have := hasc _ hc; omega⟩, ⟨by omega, fun hc => by have := hasc _ hc; omega⟩⟩
      · simp at hl; subst hl; decide
    have hcr : 13 ∉ [35 :: d, lit "0\ta\tb\t0\t1\t"].flatMap (· ++ [10]) := by
      simp only [List.mem_flatMap, not_exists, not_and]
      intro l hl hc
      rcases List.mem_append.1 hc with hc | hc
      · exact (hchars l hl).2 hc
      · simp at hc
    have hs : startsWith [35, 123] (35 :: d) = true := by rw [hb]; rfl
    rw [htext]
    simp only [loadScheme, readVocab]
    rw [univNewlines_id hcr, fileLines_rows _ (fun l hl => (hchars l hl).1)]
    simp only [List.map_cons, List.map_nil, hl0, hs, if_true, List.drop_succ_cons, List.drop_zero, hround]
    have : readTypes 1 [] [strip (lit "0\ta\tb\t0\t1\t")] = .error .value := by decide
    simp only [List.length_cons, List.length_nil, Nat.zero_add, this]

/-! ## C14 -/

/-- C14: whatever the file, a table that is read has every type at its own index and every kid among the earlier
entries.  Missing: the code also accepts a negative kid number that denotes an entry not read yet and stores `None` as a
kid (`C14_none_kid_refuted`); that outcome is the pseudo-exception `noneKid` of the model. -/
theorem C14_read_wellformed_partial (J : Json) {text : Str} {tbl : List Ty} {h : Option Header}
    (hr : readVocab J text = .ok (tbl, h)) : Indexed tbl ∧ KidsEarlier tbl := by
  have h0 : Indexed ([] : List Ty) := by intro i t ht; simp at ht
  have h1 : KidsEarlier ([] : List Ty) := by intro i t ht; simp at ht
  simp only [readVocab] at hr
  split at hr
  · cases hr
  · split at hr
    · split at hr
      · cases hr
      · split at hr
        · cases hr
        · rename_i hrt; cases hr
          obtain ⟨a, b, _⟩ := readTypes_wf _ _ _ _ hrt h0 h1
          exact ⟨a, b⟩
    · split at hr
      · cases hr
      · rename_i hrt; cases hr
        obtain ⟨a, b, _⟩ := readTypes_wf _ _ _ _ hrt h0 h1
        exact ⟨a, b⟩

/-- C14 is false: the file with the single line `0 ⟨tab⟩ a ⟨tab⟩ 0 ⟨tab⟩ 1 ⟨tab⟩ -1` passes all checks of `read_vocab`, and the
kid of the type read is `vocab[-1]`, which is `None` at that moment. -/
theorem C14_none_kid_refuted (J : Json) :
    parseType [none] (lit "0\ta\t0\t1\t-1") = .ok ⟨lit "a", 0, 0, 1, [none]⟩ ∧
      readVocab J (lit "0\ta\t0\t1\t-1\n") = .error .noneKid := by
  constructor <;> rfl

/-- C14: a negative kid number can also be accepted in place of a regular one. -/
example (J : Json) : readVocab J (lit "0\ta\t0\t1\n1\tb\t0\t1\n2\tab\t1\t1\t-3 1\n") =
    .ok ([⟨lit "a", 0, 0, 1, []⟩, ⟨lit "b", 0, 1, 1, []⟩,
      ⟨lit "ab", 1, 2, 1, [⟨lit "a", 0, 0, 1, []⟩, ⟨lit "b", 0, 1, 1, []⟩]⟩], none) := by rfl

/-! ## C31 -/

/-- C31: `write_stats` followed by `read_term_freqs` restores the mapping and the line count. -/
theorem C31_stats_round_trip {J : Json} (hJ : JsonLaws J) {stats : Dict Str Int} (hnd : (Dict.keys stats).Nodup)
    (hterm : ∀ p ∈ stats, 9 ∉ p.1 ∧ 10 ∉ p.1 ∧ strip p.1 = p.1) (n : Int) :
    ∃ d, readTermFreqs J (fileLines (writeStats J stats (some n))) = .ok (d, n) ∧ d.Perm stats ∧
      ∀ t, Dict.get? d t = Dict.get? stats t := by
  have hperm := sortByFreq_perm stats
  have hnd' : (Dict.keys (sortByFreq stats)).Nodup := (hperm.map _).nodup_iff.2 hnd
  refine ⟨sortByFreq stats, ?_, hperm, ?_⟩
  · have hpl : ({ lineCount := some n } : Header).Plain := ⟨rfl, by intro n hn; cases hn⟩
    have htext : writeStats J stats (some n) = ((35 :: J.dumps { lineCount := some n }) ::
        (sortByFreq stats).map fun p => p.1 ++ 9 :: intStr p.2).flatMap (· ++ [10]) := by
      rw [writeStats, statRows_eq, List.flatMap_cons]; simp
    have hterm' : ∀ p ∈ sortByFreq stats, TermOK p.1 := fun p hp => hterm p (hperm.subset hp)
    have hhead : ∀ c ∈ 35 :: J.dumps { lineCount := some n }, 32 ≤ c ∧ c ≤ 126 := by
      intro c hc
      rcases List.mem_cons.1 hc with rfl | hc
      · omega
      · exact hJ.ascii _ hpl c hc
    have hnl : ∀ l ∈ (35 :: J.dumps { lineCount := some n }) :: (sortByFreq stats).map fun p => p.1 ++ 9 :: intStr p.2, 10 ∉ l := by
      intro l hl
      rcases List.mem_cons.1 hl with rfl | hl
      · intro hc; have := hhead 10 hc; omega
      · obtain ⟨p, hp, rfl⟩ := List.mem_map.1 hl
        simp only [List.mem_append, List.mem_cons, not_or]
        exact ⟨(hterm' p hp).2.1, by omega, fun hc => by have := intStr_chars _ _ hc; omega⟩
    rw [htext, fileLines_rows _ hnl]
    have hs : splitOn (· == 9) (35 :: J.dumps { lineCount := some n }) = [35 :: J.dumps { lineCount := some n }] :=
      splitOn_clean (fun c hc => by have := hhead c hc; simp; omega)
    have hr : rstripP (· == 10) (35 :: J.dumps { lineCount := some n }) = 35 :: J.dumps { lineCount := some n } :=
      rstripNL_id (fun hc => by have := hhead 10 hc; omega)
    have hst : startsWith [35] (35 :: J.dumps { lineCount := some n }) = true := rfl
    have hrows := readFreqRows_ok (sortByFreq stats) [] hterm' (by rw [List.nil_append]; exact hnd')
    simp only [List.nil_append] at hrows
    simp only [readTermFreqs, hr, hs, hst, List.length_cons, List.length_nil, Nat.zero_add]
    simp [hJ.round _ hpl, hrows]
  · intro t
    cases hg : Dict.get? stats t with
    | none =>
      rw [Dict.get?_eq_none_iff] at hg ⊢
      intro hm; exact hg ((hperm.map _).subset hm)
    | some v =>
      exact Dict.get?_of_mem hnd' (hperm.symm.subset (Dict.mem_of_get? hg))

/-- C31, reading other files: white space around a term is removed, whatever the order of the rows and without a header line; the
mapping is that of the bare terms. -/
theorem C31_terms_stripped (J : Json) {rows : List (Str × Str × Str × Int)}
    (hsp : ∀ r ∈ rows, AllSpace r.1 ∧ AllSpace r.2.2.1 ∧ 9 ∉ r.1 ∧ 10 ∉ r.1 ∧ 9 ∉ r.2.2.1 ∧ 10 ∉ r.2.2.1)
    (hterm : ∀ r ∈ rows, 9 ∉ r.2.1 ∧ 10 ∉ r.2.1 ∧ (∀ c, r.2.1.head? = some c → isWhite c = false) ∧ ∀ c, r.2.1.getLast? = some c → isWhite c = false)
    (hnd : (rows.map (·.2.1)).Nodup) :
    readTermFreqs J (rows.map fun r => r.1 ++ r.2.1 ++ r.2.2.1 ++ 9 :: intStr r.2.2.2) = .ok (rows.map fun r => (r.2.1, r.2.2.2), -1) := by
  have hline : ∀ r ∈ rows, 10 ∉ (r.1 ++ r.2.1 ++ r.2.2.1 ++ 9 :: intStr r.2.2.2) ∧
      splitOn (· == 9) (r.1 ++ r.2.1 ++ r.2.2.1 ++ 9 :: intStr r.2.2.2) = [r.1 ++ r.2.1 ++ r.2.2.1, intStr r.2.2.2] ∧
      strip (r.1 ++ r.2.1 ++ r.2.2.1) = r.2.1 := by
    intro r hr
    obtain ⟨a1, a2, a3, a4, a5, a6⟩ := hsp r hr
    obtain ⟨b1, b2, b3, b4⟩ := hterm r hr
    refine ⟨?_, ?_, ?_⟩
    · simp only [List.mem_append, List.mem_cons, not_or]
      exact ⟨⟨⟨a4, b2⟩, a6⟩, by omega, fun hc => by have := intStr_chars _ _ hc; omega⟩
    · rw [splitOn_append_sep (p := (· == 9)) (c := 9) ?_ (by decide), splitOn_clean]
      · intro c hc; have := intStr_chars _ c hc; simp; omega
      · intro c hc
        have hne : c ≠ 9 := by
          rintro rfl
          simp only [List.mem_append] at hc
          tauto
        simpa using hne
    · rw [isWhite_eq] at b3 b4
      exact strip_of_decomp a1 a2 b3 b4
  have hrows : ∀ (l : List (Str × Str × Str × Int)) (d : Dict Str Int), (∀ r ∈ l, r ∈ rows) → ((Dict.keys d) ++ l.map (·.2.1)).Nodup →
      readFreqRows d (l.map fun r => r.1 ++ r.2.1 ++ r.2.2.1 ++ 9 :: intStr r.2.2.2) = .ok (d ++ l.map fun r => (r.2.1, r.2.2.2)) := by
    intro l
    induction l with
    | nil => intro d _ _; simp [readFreqRows]
    | cons r l ih =>
      intro d hl hd
      obtain ⟨c1, c2, c3⟩ := hline r (hl r (by simp))
      simp only [List.map_cons, readFreqRows, rstripNL_id c1, c2, pyInt_intStr, c3]
      have hnot : r.2.1 ∉ Dict.keys d := by
        intro hm
        have := (List.nodup_append.1 hd).2.2 _ hm r.2.1 (by simp)
        exact this rfl
      rw [set_append_new hnot, ih _ (fun q hq => hl q (by simp [hq]))]
      · simp
      · rw [Dict.keys, List.map_append, List.append_assoc]
        simpa [Dict.keys] using hd
  cases rows with
  | nil => rfl
  | cons r rs =>
    obtain ⟨c1, c2, c3⟩ := hline r (by simp)
    have := hrows (r :: rs) [] (fun _ h => h) (by simpa [Dict.keys] using hnd)
    simp only [List.map_cons, readTermFreqs, rstripNL_id c1, c2] at this ⊢
    rw [if_neg (by simp)]
    simp only [this]
    rfl

example : readTermFreqs pyJson [lit "# a\u3000\t3", lit " b \t5"] = .ok ([(lit "# a", 3), (lit "b", 5)], -1) := by decide +kernel

example : writeStats pyJson [(lit "a", 3), (lit "b", 5)] (some 2) =
    lit "#{\"version\": \"0.2\", \"line_count\": 2}\nb\t5\na\t3\n" := by decide +kernel
example : readTermFreqs pyJson (fileLines (lit "#{\"version\": \"0.2\", \"line_count\": 2}\nb\t5\na\t3\n")) =
    .ok ([(lit "b", 5), (lit "a", 3)], 2) := by decide +kernel

/-! ## C32 -/

theorem sortByFreq_freqs_perm {d d' : Dict Str Int} (h : d.Perm d') : (sortByFreq d).map (·.2) = (sortByFreq d').map (·.2) := by
  have h1 : ((sortByFreq d).map (·.2)).Pairwise (fun a b => b ≤ a) := List.pairwise_map.2 (sortByFreq_sorted d)
  have h2 : ((sortByFreq d').map (·.2)).Pairwise (fun a b => b ≤ a) := List.pairwise_map.2 (sortByFreq_sorted d')
  refine List.Perm.eq_of_pairwise (le := fun a b => b ≤ a) ?_ h1 h2 ?_
  · intro a b _ _ hab hba; exact Int.le_antisymm hba hab
  · exact (((sortByFreq_perm d).trans h).trans (sortByFreq_perm d').symm).map _

theorem trimTerms_freqs {l l' : List (Str × Int)} (h : l.map (·.2) = l'.map (·.2)) (mf vs : Int) :
    (trimTerms l mf vs).1.map (·.2) = (trimTerms l' mf vs).1.map (·.2) ∧ (trimTerms l mf vs).2 = (trimTerms l' mf vs).2 := by
  have hf : ∀ (q : Int → Bool) (l : List (Str × Int)), (l.filter fun p => q p.2).map (·.2) = (l.map (·.2)).filter q := by
    intro q l
    rw [List.filter_map]; rfl
  have e1 : (if 1 < mf then isum ((l.filter fun p => decide (p.2 < mf)).map (·.2)) else 0) =
      (if 1 < mf then isum ((l'.filter fun p => decide (p.2 < mf)).map (·.2)) else 0) := by
    rw [hf (fun x => decide (x < mf)) l, hf (fun x => decide (x < mf)) l', h]
  have e2 : (if 1 < mf then l.filter fun p => decide (mf ≤ p.2) else l).map (·.2) =
      (if 1 < mf then l'.filter fun p => decide (mf ≤ p.2) else l').map (·.2) := by
    by_cases hm : 1 < mf
    · rw [if_pos hm, if_pos hm, hf (fun x => decide (mf ≤ x)) l, hf (fun x => decide (mf ≤ x)) l', h]
    · rw [if_neg hm, if_neg hm, h]
  simp only [trimTerms, e1]
  generalize (if 1 < mf then l.filter fun p => decide (mf ≤ p.2) else l) = t at e2 ⊢
  generalize (if 1 < mf then l'.filter fun p => decide (mf ≤ p.2) else l') = t' at e2 ⊢
  have hlen : t.length = t'.length := by
    have := congrArg List.length e2; simpa using this
  rw [hlen]
  split
  · refine ⟨by rw [List.map_take, List.map_take, e2], ?_⟩
    rw [List.map_drop, List.map_drop, e2]
  · exact ⟨e2, rfl⟩

theorem getInitVocab_none (A : Acc) (level : Int) (tf : Dict Str Int) (lc : Option Int) (mf vs : Int) :
    getInitVocab A level tf none lc mf vs = .ok (updateReserved tf (trimTerms (sortByFreq (popReserved tf)) mf vs).2 lc ++
      (trimTerms (sortByFreq (popReserved tf)) mf vs).1.zipIdx.map
        fun (p, i) => { name := p.1, level := level, idx := i + 6, freq := p.2, kids := [] }) := by
  simp only [getInitVocab, Int.zero_add]

/-- frequency tables that are equal as mappings give vocabularies with the same reserved types and the same frequencies -/
theorem getInitVocab_perm (A : Acc) {tf tf' : Dict Str Int} (hp : tf.Perm tf') (hnd : (Dict.keys tf).Nodup) (lc : Option Int)
    (mf vs level : Int) : ∃ v v', getInitVocab A level tf none lc mf vs = .ok v ∧ getInitVocab A level tf' none lc mf vs = .ok v' ∧
      v.take 6 = v'.take 6 ∧ v.map (·.freq) = v'.map (·.freq) ∧ v.map (·.level) = v'.map (·.level) ∧
      (vs ≤ 0 → (v.map fun t => (t.name, t.freq)).Perm (v'.map fun t => (t.name, t.freq))) := by
  have hnd' : (Dict.keys tf').Nodup := (hp.map _).nodup_iff.1 hnd
  have hpop : (popReserved tf).Perm (popReserved tf') := by
    apply (List.perm_ext_iff_of_nodup (List.Nodup.of_map _ (nodup_popReserved hnd)) (List.Nodup.of_map _ (nodup_popReserved hnd'))).2
    rintro ⟨n, f⟩
    rw [mem_popReserved hnd, mem_popReserved hnd', hp.mem_iff]
  have hget : ∀ n, Dict.get? tf n = Dict.get? tf' n := by
    intro n
    cases hg : Dict.get? tf' n with
    | none => rw [Dict.get?_eq_none_iff] at hg ⊢; intro hm; exact hg ((hp.map _).subset hm)
    | some v => exact Dict.get?_of_mem hnd (hp.symm.subset (Dict.mem_of_get? hg))
  have hs := sortByFreq_freqs_perm hpop
  obtain ⟨h1, h2⟩ := trimTerms_freqs hs mf vs
  have hres : updateReserved tf (trimTerms (sortByFreq (popReserved tf)) mf vs).2 lc =
      updateReserved tf' (trimTerms (sortByFreq (popReserved tf')) mf vs).2 lc := by
    have hf : ∀ i n, reservedFreq tf (trimTerms (sortByFreq (popReserved tf)) mf vs).2 lc i n =
        reservedFreq tf' (trimTerms (sortByFreq (popReserved tf')) mf vs).2 lc i n := by
      intro i n; simp only [reservedFreq, hget, h2]
    unfold updateReserved
    apply List.map_congr_left
    intro t _
    simp only [hf]
  refine ⟨_, _, getInitVocab_none _ _ _ _ _ _, getInitVocab_none _ _ _ _ _ _, ?_, ?_, ?_, ?_⟩
  · rw [List.take_left' (updateReserved_length _ _ _), List.take_left' (updateReserved_length _ _ _), hres]
  · rw [List.map_append, List.map_append, zipIdx_types_freqs, zipIdx_types_freqs, h1, hres]
  · rw [List.map_append, List.map_append, hres]
    congr 1
    have hl : (trimTerms (sortByFreq (popReserved tf)) mf vs).1.length = (trimTerms (sortByFreq (popReserved tf')) mf vs).1.length := by
      have := congrArg List.length h1; simpa using this
    have key : ∀ l : List (Str × Int), (l.zipIdx.map fun (p, i) => ({ name := p.1, level := level, idx := i + 6, freq := p.2, kids := [] } : Ty)).map (·.level)
        = List.replicate l.length level := by
      intro l
      rw [List.eq_replicate_iff]
      refine ⟨by simp, ?_⟩
      intro b hb
      obtain ⟨t, ht, rfl⟩ := List.mem_map.1 hb
      exact (mem_zipIdx_types ht).2.1
    rw [key, key, hl]
  · intro hvs
    rw [List.map_append, List.map_append, hres]
    apply List.Perm.append_left
    have key : ∀ l : List (Str × Int), (l.zipIdx.map fun (p, i) => ({ name := p.1, level := level, idx := i + 6, freq := p.2, kids := [] } : Ty)).map
        (fun t => (t.name, t.freq)) = l := by
      intro l
      rw [List.map_map]
      exact (List.zipIdx_map_fst 0 l)
    rw [key, key]
    have hno : ∀ k : Nat, ¬ (0 < vs ∧ vs < (k : Int)) := by intro k; omega
    have hsp : (sortByFreq (popReserved tf)).Perm (sortByFreq (popReserved tf')) :=
      ((sortByFreq_perm _).trans hpop).trans (sortByFreq_perm _).symm
    simp only [trimTerms, if_neg (hno _)]
    split
    · exact hsp.filter _
    · exact hsp

/-- C32: for the word scheme, learning from the file written for the counts of a corpus (in any order, e.g. as collected
by Spark) and learning from the corpus give vocabularies with the same reserved types and the same frequencies; a word of
one that is missing in the other has the lowest frequency kept there (it was exchanged for an equally frequent word at
the size limit); without a size limit the entries are the same. -/
theorem C32_stats_learning {J : Json} (hJ : JsonLaws J) {A : Acc} (data : List Str) {stats : Dict Str Int}
    (hst : stats.Perm (termFrequencies .word data).1) (vs mf : Int) :
    ∃ v v', learnRaw A .word data vs mf none = .ok v ∧
      learnFromStats J A (fileLines (writeStats J stats (some data.length))) vs mf none = .ok v' ∧
      v.take 6 = v'.take 6 ∧ v.map (·.freq) = v'.map (·.freq) ∧ v.map (·.level) = v'.map (·.level) ∧
      (∀ t ∈ v.drop 6, t.name ∉ names v' → ∀ u ∈ v'.drop 6, t.freq ≤ u.freq) ∧
      (∀ t ∈ v'.drop 6, t.name ∉ names v → ∀ u ∈ v.drop 6, t.freq ≤ u.freq) ∧
      (vs ≤ 0 → (v.map fun t => (t.name, t.freq)).Perm (v'.map fun t => (t.name, t.freq))) := by
  have hnd0 := termFrequencies_nodup .word data
  have hcnt := termFrequencies_count .word data
  have hpos : ∀ p ∈ (termFrequencies .word data).1, 1 ≤ p.2 := by
    rintro ⟨n, f⟩ hp
    rw [hcnt, mem_count_nil] at hp
    have := List.count_pos_iff.2 hp.1
    simp only [hp.2]; omega
  have htok : ∀ p ∈ (termFrequencies .word data).1, IsToken p.1 := by
    rintro ⟨n, f⟩ hp
    rw [hcnt, mem_count_nil] at hp
    obtain ⟨l, _, hl⟩ := List.mem_flatMap.1 hp.1
    exact split_isToken hl
  have hnd : (Dict.keys stats).Nodup := (hst.map _).nodup_iff.2 hnd0
  obtain ⟨d, hr, hd, _⟩ := C31_stats_round_trip hJ hnd (fun p hp => by
    have ht := htok p (hst.subset hp)
    refine ⟨fun hc => ?_, fun hc => ?_, strip_token ht⟩
    · have := ht.2 9 hc; exact absurd this (by decide)
    · have := ht.2 10 hc; exact absurd this (by decide)) (data.length : Int)
  have hdp : (termFrequencies .word data).1.Perm d := (hd.trans hst).symm
  obtain ⟨v, v', h1, h2, h3, h4, h5, h6⟩ := getInitVocab_perm A hdp hnd0 (some (data.length : Int)) mf vs Level.word
  have hndd : (Dict.keys d).Nodup := (hdp.map _).nodup_iff.1 hnd0
  have hc1 := C15_contract hnd0 hpos h1
  have hc2 := C15_contract hndd (fun p hp => hpos p (hdp.symm.subset hp)) h2
  refine ⟨v, v', h1, ?_, h3, h4, h5, ?_, ?_, h6⟩
  · simp only [learnFromStats, hr]; exact h2
  · intro t ht hn u hu
    exact hc2.best (t.name, t.freq) (hdp.subset (hc1.counted t ht).1) hn u hu
  · intro t ht hn u hu
    exact hc1.best (t.name, t.freq) (hdp.symm.subset (hc2.counted t ht).1) hn u hu

example : learnRaw accExact .word [lit "b a b", lit "c a b"] 8 1 none =
    learnFromStats pyJson accExact (fileLines (writeStats pyJson [(lit "a", 2), (lit "c", 1), (lit "b", 3)] (some 2))) 8 1 none := by
  decide +kernel
/-- the exchange at the size limit does happen -/
example : learnRaw accExact .word [lit "a b"] 7 1 none ≠
    learnFromStats pyJson accExact (fileLines (writeStats pyJson [(lit "b", 1), (lit "a", 1)] (some 1))) 7 1 none := by
  decide +kernel

end Verif
