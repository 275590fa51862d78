import Verif.Lemmas.Bpe
/-!
# Properties C01-C05, C11: word, char and bpe schemes

`Tokens line ws` (Verif/Spec/Text.lean) says that the whitespace-separated tokens of `line` are `ws`;
every line has exactly one such list (`tokens_exists_unique`).
-/

namespace Verif
open Spec

/-- Every line has exactly one token list, so hypotheses `Tokens line ws` are no restriction. -/
theorem tokens_exists_unique (line : Str) : ∃ ws, Tokens line ws ∧ ∀ ws', Tokens line ws' → ws' = ws :=
  ⟨split line, tokens_split line, fun _ h => (split_of_tokens h).symm⟩

/-- small vocabulary used in the examples: reserved types and the given names at level `lv` -/
def exTable (lv : Int) (ns : List String) : List Ty :=
  reservedTypes ++ ns.zipIdx.map fun (n, i) => { name := lit n, level := lv, idx := i + 6, freq := 1, kids := [] }

/-- evaluate a scheme built from a table -/
def withScheme {α : Type} (k : Kind) (tbl : List Ty) (f : Scheme → Py α) : Py α :=
  match Scheme.make k tbl with
  | .error e => .error e
  | .ok s => f s

/-! ## C01 -/

/-- C01: decode(encode(line)) is the tokens joined by one space, unknown tokens replaced by `<unk>`. -/
theorem C01_word_round_trip {tbl : List Ty} {s : Scheme} (h : Scheme.make .word tbl = .ok s)
    {line : Str} {ws : List Str} (hw : Tokens line ws) :
    ∃ ids, s.encode line = .ok ids ∧
      s.decode ids = .ok (List.intercalate [32] (ws.map fun w => if w ∈ names tbl then w else lit "<unk>")) := by
  obtain ⟨h1, h2, h3, h4, h5⟩ := make_word_ok h
  subst h1
  refine ⟨(split line).map s.idOf, ?_, ?_⟩
  · simp only [Scheme.encode, Scheme.encodeStr, h2]
    exact idsOf_eq (by rw [h2]; decide) h3 _
  · simp only [Scheme.decode, namesOf_idOf (by rw [h2]; decide) h5, Scheme.decodeStr, h2, join_eq_intercalate,
      split_of_tokens hw]
    rfl

/-- C01, covered text: decode(encode(line)) is the whitespace-normalised line. -/
theorem C01_word_lossless {tbl : List Ty} {s : Scheme} (h : Scheme.make .word tbl = .ok s)
    {line : Str} {ws : List Str} (hw : Tokens line ws) (hc : ∀ w ∈ ws, w ∈ names tbl) :
    ∃ ids, s.encode line = .ok ids ∧ s.decode ids = .ok (List.intercalate [32] ws) := by
  obtain ⟨ids, h1, h2⟩ := C01_word_round_trip h hw
  refine ⟨ids, h1, ?_⟩
  rw [h2, List.map_congr_left (g := id) (fun w hw' => by simp [hc w hw'])]
  simp

example : (withScheme .word (exTable Level.word ["hello", "world"]) fun s => s.encode (lit " hello \t there  world\n"))
    = .ok [6, 1, 7] := by decide
example : (withScheme .word (exTable Level.word ["hello", "world"]) fun s => s.decode [6, 1, 7])
    = .ok (lit "hello <unk> world") := by decide

/-! ## C02 -/

/-- C02: every known character is kept (U+2581 becomes a space), every unknown character becomes `<unk>`;
tokens are separated by one space. -/
theorem C02_char_round_trip {tbl : List Ty} {s : Scheme} (h : Scheme.make .char tbl = .ok s)
    {line : Str} {ws : List Str} (hw : Tokens line ws) :
    ∃ ids, s.encode line = .ok ids ∧
      s.decode ids = .ok ((List.intercalate [SP] ws).flatMap fun c =>
        if c = SP then [32] else if [c] ∈ names tbl then [c] else lit "<unk>") := by
  obtain ⟨h1, h2, h3, h4, h5⟩ := make_char_ok h
  subst h1
  refine ⟨((join [SP] (split line)).map fun c => [c]).map s.idOf, ?_, ?_⟩
  · simp only [Scheme.encode, Scheme.encodeStr, h2]
    exact idsOf_eq (by rw [h2]; decide) h3 _
  · have hnm := namesOf_idOf (s := s) (by rw [h2]; decide) h5 ((join [SP] (split line)).map fun c => [c])
    simp only [Scheme.decode, hnm, Scheme.decodeStr, h2]
    simp only [join_eq_intercalate, split_of_tokens hw, List.map_map]
    congr 1
    have hsp : [SP] ∈ names s.table := by
      obtain ⟨t, ht, hn⟩ := validateReserved_ok h5 5 (by omega)
      exact List.mem_map.2 ⟨t, List.mem_of_getElem? ht, by rw [hn]; rfl⟩
    induction List.intercalate [SP] ws with
    | nil => rfl
    | cons c cs ih =>
      simp only [List.map_cons, List.flatten_cons, List.flatMap_cons, replaceCh, List.map_append] at ih ⊢
      rw [ih]
      congr 1
      simp only [Function.comp]
      by_cases hc : c = SP
      · subst hc
        have : [SP] ∈ List.map (fun x => x.name) s.table := hsp
        simp [this]
      · by_cases hm : [c] ∈ List.map (fun x => x.name) s.table
        · have : [c] ∈ names s.table := hm
          simp [this, hc, hm]
        · have : [c] ∉ names s.table := hm
          rw [if_neg hm, if_neg hc, if_neg this]
          decide

/-- C02, covered text without U+2581: decode(encode(line)) is the whitespace-normalised line. -/
theorem C02_char_lossless {tbl : List Ty} {s : Scheme} (h : Scheme.make .char tbl = .ok s)
    {line : Str} {ws : List Str} (hw : Tokens line ws) (hc : ∀ w ∈ ws, ∀ c ∈ w, [c] ∈ names tbl ∧ c ≠ SP) :
    ∃ ids, s.encode line = .ok ids ∧ s.decode ids = .ok (List.intercalate [32] ws) := by
  obtain ⟨ids, h1, h2⟩ := C02_char_round_trip h hw
  refine ⟨ids, h1, ?_⟩
  rw [h2]
  congr 1
  clear h2 h1 hw
  have key : ∀ w : Str, (∀ c ∈ w, [c] ∈ names tbl ∧ c ≠ SP) →
      (w.flatMap fun c => if c = SP then [32] else if [c] ∈ names tbl then [c] else lit "<unk>") = w := by
    intro w
    induction w with
    | nil => intro _; rfl
    | cons c cs ih =>
      intro hcc
      have h0 := hcc c (by simp)
      rw [List.flatMap_cons, ih (fun d hd => hcc d (by simp [hd])), if_neg h0.2, if_pos h0.1]
      rfl
  rw [← join_eq_intercalate, ← join_eq_intercalate]
  induction ws with
  | nil => rfl
  | cons w ws ih =>
    cases ws with
    | nil => exact key w (hc w (by simp))
    | cons v vs =>
      simp only [join, List.flatMap_append]
      rw [key w (hc w (by simp)), ih (fun u hu => hc u (by simp [hu]))]
      rfl

example : (withScheme .char (exTable Level.char ["a", "b"]) fun s => s.encode (lit "ab  c▁b")) = .ok [6, 7, 5, 1, 5, 7] := by
  decide
example : (withScheme .char (exTable Level.char ["a", "b"]) fun s => s.decode [6, 7, 5, 1, 5, 7]) = .ok (lit "ab <unk> b") := by
  decide
/-- the hypothesis of `C02_char_lossless` is met by " ab  a\n" -/
example : Tokens (lit " ab  a\n") [lit "ab", lit "a"] := by
  have : [lit "ab", lit "a"] = split (lit " ab  a\n") := by decide
  rw [this]; exact tokens_split _

/-! ## C03 -/

/-- C03: `encode_str` terminates without error on every line, and its pieces are the greedy longest-match
segmentation of the tokens joined and ended by U+2581 (unknown characters: `<unk>`). -/
theorem C03_bpe_greedy {tbl : List Ty} {s : Scheme} (h : Scheme.make .bpe tbl = .ok s) (hi : Indexed tbl)
    {line : Str} {ws : List Str} (hw : Tokens line ws) :
    ∃ out, Greedy (names tbl) (List.intercalate [SP] ws ++ [SP]) out ∧
      s.encodeStr line = .ok (out.map fun o => o.getD (lit "<unk>")) := by
  obtain ⟨out, h1, h2⟩ := bpeEncodeStr_spec h hi line
  refine ⟨out, ?_, h2⟩
  rw [bpeText, split_strip, split_of_tokens hw, join_eq_intercalate] at h1
  exact h1

/-- C03: the greedy segmentation is unique, so `C03_bpe_greedy` determines the output. -/
theorem C03_greedy_unique {ns : List Str} {t : Str} {o1 o2 : List (Option Str)}
    (h1 : Greedy ns t o1) (h2 : Greedy ns t o2) : o1 = o2 := h1.unique h2

/-- C03: without the constructor's check that no name is empty the loop would not terminate: with an empty name
in the trie the state repeats, whatever the fuel. -/
theorem C03_empty_name_diverges (t : Ty) (c : Nat) (r : Str) (fuel : Nat) (res : List Int) (unk : Int) :
    encLoop (Trie.empty.insert [] t) unk fuel (EncSt.start (Trie.empty.insert [] t) (c :: r) res) = .error .fuel := by
  induction fuel generalizing res with
  | zero => rfl
  | succ k ih =>
    rw [encLoop, if_pos (by simp [EncSt.cond, EncSt.start])]
    have : EncSt.step (Trie.empty.insert [] t) unk (EncSt.start (Trie.empty.insert [] t) (c :: r) res) =
        EncSt.start (Trie.empty.insert [] t) (c :: r) (res ++ [(t.idx : Int)]) := by
      simp [EncSt.step, EncSt.start, Trie.insert, Trie.empty, Trie.child, EncSt.step.emit]
    rw [this]
    exact ih _

/-- the example in the comment of `encode_str`: vocab Th, This▁, is▁, Xmas▁, This▁Xmas▁; text "This Xis" -/
example : (withScheme .bpe (exTable Level.subword ["Th", "This▁", "is▁", "Xmas▁", "This▁Xmas▁"]) fun s =>
    s.encodeStr (lit "This  Xis ")) = .ok [lit "This▁", lit "<unk>", lit "is▁"] := by decide

/-! ## C04 -/

theorem strip_intercalate {ws : List Str} (h : ∀ w ∈ ws, IsToken w) :
    strip (join [32] ws ++ [32]) = join [32] ws := by
  have h32 : AllSpace [32] := by intro c hc; simp at hc; subst hc; decide
  by_cases hne : ws = []
  · subst hne; decide
  · have hh : ∀ c, (join [32] ws).head? = some c → isSpace c = false := by
      intro c hc
      cases ws with
      | nil => exact absurd rfl hne
      | cons w ws =>
        obtain ⟨d, ds, hd⟩ := List.exists_cons_of_ne_nil (h w (by simp)).1
        have : c = d := by
          cases ws with
          | nil => simp [join, hd] at hc; exact hc.symm
          | cons v vs => simp [join, hd] at hc; exact hc.symm
        rw [this]
        exact (isToken_iff.1 (h w (by simp))).2 d (by simp [hd])
    have hl : ∀ c, (join [32] ws).getLast? = some c → isSpace c = false := by
      clear hh
      induction ws with
      | nil => exact absurd rfl hne
      | cons w ws ih =>
        intro c hc
        cases ws with
        | nil => exact (isToken_iff.1 (h w (by simp))).2 c (List.mem_of_getLast? (by simpa [join] using hc))
        | cons v vs =>
          refine ih (fun u hu => h u (by simp [hu])) (by simp) c ?_
          have hnn : join [32] (v :: vs) ≠ [] := by
            have := (h v (by simp)).1
            cases vs <;> simp [join, this]
          simp only [join] at hc
          rw [List.getLast?_append] at hc
          cases hx : (join [32] (v :: vs)).getLast? with
          | none => exact absurd (List.getLast?_eq_none_iff.1 hx) hnn
          | some y => simpa [hx] using hc
    have := strip_of_decomp (g := []) (s := join [32] ws) (h := [32]) (by intro c hc; simp at hc) h32 hh hl
    simpa using this

theorem replaceCh_join (ws : List Str) (h : ∀ w ∈ ws, ∀ c ∈ w, c ≠ SP) :
    replaceCh SP 32 (join [SP] ws) = join [32] ws := by
  have key : ∀ w : Str, (∀ c ∈ w, c ≠ SP) → replaceCh SP 32 w = w := by
    intro w hw
    induction w with
    | nil => rfl
    | cons c cs ih =>
      simp only [replaceCh, List.map_cons] at ih ⊢
      rw [ih (fun d hd => hw d (by simp [hd])), if_neg (hw c (by simp))]
  induction ws with
  | nil => rfl
  | cons w ws ih =>
    cases ws with
    | nil => exact key w (h w (by simp))
    | cons v vs =>
      have h1 := key w (h w (by simp))
      have h2 := ih (fun u hu => h u (by simp [hu]))
      simp only [replaceCh] at h1 h2
      simp only [join, replaceCh, List.map_append, List.map_cons, List.map_nil, if_true, h1, h2]

theorem mem_join {sep : Str} {ws : List Str} {c : Nat} (h : c ∈ join sep ws) : c ∈ sep ∨ ∃ w ∈ ws, c ∈ w := by
  induction ws with
  | nil => simp [join] at h
  | cons w ws ih =>
    cases ws with
    | nil => exact Or.inr ⟨w, by simp, by simpa [join] using h⟩
    | cons v vs =>
      simp only [join, List.mem_append] at h
      rcases h with (h | h) | h
      · exact Or.inr ⟨w, by simp, h⟩
      · exact Or.inl h
      · rcases ih h with h | ⟨u, hu, hc⟩
        · exact Or.inl h
        · exact Or.inr ⟨u, by simp [hu], hc⟩

theorem bpe_decode_encode {tbl : List Ty} {s : Scheme} (h : Scheme.make .bpe tbl = .ok s) (hi : Indexed tbl) (line : Str) :
    ∃ ids ps, s.encode line = .ok ids ∧ s.encodeStr line = .ok ps ∧ namesOf s.table ids = .ok ps := by
  obtain ⟨h1, h2, h3, h4, h5, h6⟩ := make_bpe_ok h
  obtain ⟨out, hg, he, hen⟩ := bpe_encode_spec h hi line
  refine ⟨_, _, hen, he, ?_⟩
  have hv : validateReserved s.table = .ok () := by rw [h1]; exact h4
  have := namesOf_idOf (s := s) (by rw [h2]; decide) hv (out.map fun o => o.getD unkName)
  rw [List.map_map] at this
  have e : (s.idOf ∘ fun o : Option Str => o.getD unkName) = fun o => s.idOf (o.getD unkName) := rfl
  rw [e] at this
  rw [this]
  congr 1
  rw [List.map_map]
  apply List.map_congr_left
  intro o ho
  simp only [Function.comp]
  have hunk : unkName ∈ s.table.map (·.name) := by
    obtain ⟨t, ht, hn⟩ := validateReserved_ok hv 1 (by omega)
    exact List.mem_map.2 ⟨t, List.mem_of_getElem? ht, by rw [hn]; rfl⟩
  cases o with
  | none => simp
  | some w =>
    have hw : w ∈ s.table.map (·.name) := by rw [h1]; exact greedy_mem hg w ho
    rw [Option.getD_some, if_pos hw]

/-- C04: for every accepted bpe vocabulary, covered lines are decoded to the whitespace-normalised line. -/
theorem C04_bpe_lossless {tbl : List Ty} {s : Scheme} (h : Scheme.make .bpe tbl = .ok s) (hi : Indexed tbl)
    {line : Str} {ws : List Str} (hw : Tokens line ws) (hc : ∀ w ∈ ws, ∀ c ∈ w, [c] ∈ names tbl ∧ c ≠ SP) :
    ∃ ids, s.encode line = .ok ids ∧ s.decode ids = .ok (List.intercalate [32] ws) := by
  obtain ⟨h1, h2, h3, h4, h5, h6⟩ := make_bpe_ok h
  obtain ⟨ids, ps, a, b, c⟩ := bpe_decode_encode h hi line
  refine ⟨ids, a, ?_⟩
  simp only [Scheme.decode, c, Scheme.decodeStr, h2]
  obtain ⟨out, hg, he⟩ := bpeEncodeStr_spec h hi line
  rw [he] at b
  cases b
  have hws : ∀ w ∈ ws, IsToken w := fun w hww => split_isToken (by rw [split_of_tokens hw]; exact hww)
  have htext : bpeText line = join [SP] ws ++ [SP] := by rw [bpeText, split_strip, split_of_tokens hw]
  have hsp : [SP] ∈ tbl.map (·.name) := by
    obtain ⟨t, ht, hn⟩ := validateReserved_ok h4 5 (by omega)
    exact List.mem_map.2 ⟨t, List.mem_of_getElem? ht, by rw [hn]; rfl⟩
  have hcov : ∀ c ∈ bpeText line, [c] ∈ tbl.map (·.name) := by
    intro c hcm
    rw [htext] at hcm
    rcases List.mem_append.1 hcm with hcm | hcm
    · rcases mem_join hcm with hcm | ⟨w, hwm, hcw⟩
      · simp at hcm; subst hcm; exact hsp
      · exact (hc w hwm c hcw).1
    · simp at hcm; subst hcm; exact hsp
  rw [(greedy_covered hg hcov).2, htext]
  have : replaceCh SP 32 (join [SP] ws ++ [SP]) = join [32] ws ++ [32] := by
    have := replaceCh_join ws (fun w hwm c hcw => (hc w hwm c hcw).2)
    simp only [replaceCh] at this ⊢
    rw [List.map_append, this]
    rfl
  rw [this, strip_intercalate hws, join_eq_intercalate]

/-- C04: going through ids or through pieces gives the same text on every line. -/
theorem C04_ids_pieces_agree {tbl : List Ty} {s : Scheme} (h : Scheme.make .bpe tbl = .ok s) (hi : Indexed tbl) (line : Str) :
    ∃ ids ps, s.encode line = .ok ids ∧ s.encodeStr line = .ok ps ∧ s.decode ids = s.decodeStr ps := by
  obtain ⟨ids, ps, a, b, c⟩ := bpe_decode_encode h hi line
  exact ⟨ids, ps, a, b, by simp [Scheme.decode, c]⟩

/-- a vocabulary with overlapping and duplicate names; the line is covered -/
example : (withScheme .bpe (exTable Level.subword ["a", "b", "ab", "ba", "ab", "b▁a"]) fun s =>
    s.encode (lit " abb  aba")) = .ok [8, 11, 9, 5] := by decide
example : (withScheme .bpe (exTable Level.subword ["a", "b", "ab", "ba", "ab", "b▁a"]) fun s =>
    s.decode [8, 11, 9, 5]) = .ok (lit "abb aba") := by decide

/-! ## C05 -/

theorem idOf_range {s : Scheme} (hk : s.kind ≠ .clasz) (hv : validateReserved s.table = .ok ()) (p : Str) :
    0 ≤ s.idOf p ∧ s.idOf p < s.table.length := by
  simp only [Scheme.idOf]
  cases h : s.idxToStr.idxOf? p with
  | some i =>
    have hg := idxOf?_some_get h
    have : i < s.idxToStr.length := (List.getElem?_eq_some_iff.1 hg).1
    simp only [Scheme.idxToStr, List.length_map] at this
    simp only; omega
  | none =>
    obtain ⟨t, ht, _⟩ := validateReserved_ok hv 1 (by omega)
    have : 1 < s.table.length := (List.getElem?_eq_some_iff.1 ht).1
    simp only [Scheme.unk, hk, if_false, UNK]; omega

/-- C05 (word, char): encoding never fails and every id is a valid index. -/
theorem C05_ids_in_range_word_char {k : Kind} (hk : k = .word ∨ k = .char) {tbl : List Ty} {s : Scheme}
    (h : Scheme.make k tbl = .ok s) (line : Str) :
    ∃ ids, s.encode line = .ok ids ∧ ∀ i ∈ ids, 0 ≤ i ∧ i < tbl.length := by
  have key : s.table = tbl ∧ (s.kind = .word ∨ s.kind = .char) ∧ DictOK s ∧ validateReserved tbl = .ok () := by
    rcases hk with rfl | rfl
    · obtain ⟨a, b, c, _, d⟩ := make_word_ok h; exact ⟨a, Or.inl b, c, d⟩
    · obtain ⟨a, b, c, _, d⟩ := make_char_ok h; exact ⟨a, Or.inr b, c, d⟩
  obtain ⟨h1, h2, h3, h4⟩ := key
  subst h1
  have hnc : s.kind ≠ .clasz := by rcases h2 with h2 | h2 <;> rw [h2] <;> decide
  have hnb : s.kind ≠ .byte := by rcases h2 with h2 | h2 <;> rw [h2] <;> decide
  have : ∃ ps, s.encodeStr line = .ok ps := by
    rcases h2 with h2 | h2 <;> simp [Scheme.encodeStr, h2]
  obtain ⟨ps, hps⟩ := this
  refine ⟨ps.map s.idOf, by simp [Scheme.encode, hps, idsOf_eq hnb h3], ?_⟩
  intro i hi
  obtain ⟨p, _, rfl⟩ := List.mem_map.1 hi
  exact idOf_range hnc h4 p

/-- C05 (bpe): encoding never fails and every id is a valid index. -/
theorem C05_ids_in_range_bpe {tbl : List Ty} {s : Scheme} (h : Scheme.make .bpe tbl = .ok s) (hi : Indexed tbl)
    (line : Str) : ∃ ids, s.encode line = .ok ids ∧ ∀ i ∈ ids, 0 ≤ i ∧ i < tbl.length := by
  obtain ⟨h1, h2, h3, h4, h5, h6⟩ := make_bpe_ok h
  subst h1
  obtain ⟨out, hg, he, hen⟩ := bpe_encode_spec h hi line
  refine ⟨_, hen, ?_⟩
  intro i hi
  obtain ⟨o, _, rfl⟩ := List.mem_map.1 hi
  exact idOf_range (by rw [h2]; decide) h4 _

theorem idsOf_byte_range {s : Scheme} (hk : s.kind = .byte) (hd : DictOK s) (ps : List Str) (ids : List Int)
    (h : s.idsOf ps = .ok ids) : ∀ i ∈ ids, 0 ≤ i ∧ i < s.table.length := by
  induction ps generalizing ids with
  | nil => simp [Scheme.idsOf] at h; subst h; simp
  | cons p ps ih =>
    simp only [Scheme.idsOf, hk] at h
    cases hg : Dict.get? s.s2i p with
    | none => simp [hg] at h
    | some j =>
      simp only [hg] at h
      cases hr : s.idsOf ps with
      | error e => simp [hr] at h
      | ok is =>
        simp only [hr] at h
        cases h
        intro i hi
        rcases List.mem_cons.1 hi with rfl | hi
        · rw [hd.get] at hg
          have := (List.getElem?_eq_some_iff.1 (idxOf?_some_get hg)).1
          simp only [Scheme.idxToStr, List.length_map] at this
          omega
        · exact ih is hr i hi

/-- C05 (byte): whenever encoding succeeds every id is a valid index. -/
theorem C05_ids_in_range_byte {tbl : List Ty} {s : Scheme} (h : Scheme.make .byte tbl = .ok s) (line : Str)
    {ids : List Int} (he : s.encode line = .ok ids) : ∀ i ∈ ids, 0 ≤ i ∧ i < s.table.length := by
  obtain ⟨h1, h2, h3, h4⟩ := mkInvertible_ok h
  simp only [Scheme.encode] at he
  cases hp : s.encodeStr line with
  | error e => simp [hp] at he
  | ok ps => simp only [hp] at he; exact idsOf_byte_range h2 h3 ps ids he

/-- C05 (class): one id, in range or -1. -/
theorem C05_ids_class {tbl : List Ty} {s : Scheme} (h : Scheme.make .clasz tbl = .ok s) (line : Str) :
    ∃ i, s.encode line = .ok [i] ∧ ((0 ≤ i ∧ i < tbl.length) ∨ i = -1) := by
  obtain ⟨h1, h2, h3, h4⟩ := mkInvertible_ok h
  refine ⟨s.idOf (strip line), ?_, ?_⟩
  · simp [Scheme.encode, Scheme.encodeStr, h2, idsOf_eq (by rw [h2]; decide) h3]
  · simp only [Scheme.idOf]
    cases hx : s.idxToStr.idxOf? (strip line) with
    | some i =>
      have := (List.getElem?_eq_some_iff.1 (idxOf?_some_get hx)).1
      simp only [Scheme.idxToStr, List.length_map, h1] at this
      simp only; omega
    | none => right; simp [Scheme.unk, h2]

/-- C05: decoding an encoded line never raises (word, char, bpe). -/
theorem C05_decode_encode_total {k : Kind} (hk : k = .word ∨ k = .char ∨ k = .bpe) {tbl : List Ty} {s : Scheme}
    (h : Scheme.make k tbl = .ok s) (hi : Indexed tbl) (line : Str) :
    ∃ ids txt, s.encode line = .ok ids ∧ s.decode ids = .ok txt := by
  rcases hk with rfl | rfl | rfl
  · obtain ⟨ids, a, b⟩ := C01_word_round_trip h (tokens_split line); exact ⟨ids, _, a, b⟩
  · obtain ⟨ids, a, b⟩ := C02_char_round_trip h (tokens_split line); exact ⟨ids, _, a, b⟩
  · obtain ⟨ids, ps, a, b, c⟩ := bpe_decode_encode h hi line
    obtain ⟨h1, h2, _⟩ := make_bpe_ok h
    exact ⟨ids, strip (replaceCh SP 32 ps.flatten), a, by simp only [Scheme.decode, c, Scheme.decodeStr, h2]⟩

/-- the example tables satisfy `Indexed` -/
example : Indexed (exTable Level.subword ["a", "b", "ab"]) := by
  intro i t h
  have hi : i < 9 := (List.getElem?_eq_some_iff.1 h).1
  have : ∀ i, i < 9 → ∀ t, (exTable Level.subword ["a", "b", "ab"])[i]? = some t → t.idx = i := by decide
  exact this i hi t h

/-- C03–C05 need the types to carry their own position as index: the constructor accepts the table without it, and encoding then
raises IndexError. -/
theorem C05_index_needed : ∃ (tbl : List Ty) (s : Scheme), Scheme.make .bpe tbl = .ok s ∧ s.encode (lit "a") = .error .index := by
  refine ⟨(exTable Level.subword ["a"]).map fun t => if t.name = lit "a" then { t with idx := 20 } else t, _, rfl, ?_⟩
  decide +kernel

/-! ## C11 -/

/-- C11: the encoding depends only on the tokens (word, char, bpe). -/
theorem C11_encode_tokens {k : Kind} (hk : k = .word ∨ k = .char ∨ k = .bpe) {tbl : List Ty} {s : Scheme}
    (h : Scheme.make k tbl = .ok s) {l1 l2 : Str} {ws : List Str} (h1 : Tokens l1 ws) (h2 : Tokens l2 ws) :
    s.encode l1 = s.encode l2 ∧ s.encodeStr l1 = s.encodeStr l2 := by
  have hsplit : split l1 = split l2 := by rw [split_of_tokens h1, split_of_tokens h2]
  have key : s.encodeStr l1 = s.encodeStr l2 := by
    rcases hk with rfl | rfl | rfl
    · simp [Scheme.encodeStr, (make_word_ok h).2.1, hsplit]
    · simp [Scheme.encodeStr, (make_char_ok h).2.1, hsplit]
    · simp [Scheme.encodeStr, (make_bpe_ok h).2.1, bpeIds, bpeText, split_strip, hsplit]
  exact ⟨by simp [Scheme.encode, key], key⟩

/-- C11: for the word scheme encode(decode(encode(line))) = encode(line), whether or not the tokens are known. -/
theorem C11_word_stable {tbl : List Ty} {s : Scheme} (h : Scheme.make .word tbl = .ok s) (line : Str) :
    ∃ ids txt, s.encode line = .ok ids ∧ s.decode ids = .ok txt ∧ s.encode txt = .ok ids := by
  obtain ⟨h1, h2, h3, h4, h5⟩ := make_word_ok h
  subst h1
  have hnb : s.kind ≠ .byte := by rw [h2]; decide
  have enc : ∀ l, s.encode l = .ok ((split l).map s.idOf) := by
    intro l
    simp only [Scheme.encode, Scheme.encodeStr, h2]
    exact idsOf_eq hnb h3 _
  refine ⟨_, join [32] ((split line).map fun p => if p ∈ s.table.map (·.name) then p else unkName), enc line, ?_, ?_⟩
  · simp only [Scheme.decode, namesOf_idOf (by rw [h2]; decide) h5, Scheme.decodeStr, h2]
  · rw [enc, split_join_space, List.map_map]
    · congr 1
      apply List.map_congr_left
      intro w _
      simp only [Function.comp]
      split
      · rfl
      · rename_i hm
        obtain ⟨t, ht, hn⟩ := validateReserved_ok h5 1 (by omega)
        have e1 : s.idxToStr.idxOf? unkName = some 1 := by
          apply idxOf?_eq_of_nodup h4
          simp only [List.getElem?_map, ht, Option.map_some, hn]; rfl
        have e2 : s.idxToStr.idxOf? w = none := by
          rw [List.idxOf?_eq_none_iff]; exact hm
        simp [Scheme.idOf, e1, e2, Scheme.unk, h2, UNK]
    · intro w hw
      obtain ⟨p, hp, rfl⟩ := List.mem_map.1 hw
      split
      · exact split_isToken hp
      · refine ⟨by decide, by decide⟩

/-- two different layouts of the same tokens -/
example : split (lit "a  b\t c") = split (lit "\na b c ") := by decide

end Verif
