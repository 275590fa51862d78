import Verif.Props.BpeppCodec
import Verif.Props.BpeLearn
import Verif.Props.Restore
/-!
# Properties C86, C87: vocabulary files and commands of `experimental/bpepp.py`
-/

namespace Verif
open Spec

/-! ## C86 -/

theorem ppWriteVocab_text {info : Str} (hinfo : ∀ c ∈ info, 32 ≤ c ∧ c ≤ 126) {tbl : List Ty} (hi : Indexed tbl)
    (hn : ∀ t ∈ tbl, NameOK t.name) : ppWriteVocab info tbl = .ok (((35 :: info) :: tbl.map Ty.format).flatMap (· ++ [10])) := by
  have hw := writeRows_ok tbl 0 (fun j t hj => by rw [hi j t hj]; omega)
  simp only [ppWriteVocab, hw]
  rw [dropSurrogates_id]
  · simp [List.flatMap_map]
  · intro c hc
    simp only [List.cons_append, List.mem_cons, List.mem_append, List.mem_flatMap, List.not_mem_nil, or_false] at hc
    have small : ∀ c, c ≤ 126 → isSurrogate c = false := by
      intro c hc; simp only [isSurrogate, decide_eq_false_iff_not]; omega
    rcases hc with rfl | hc | rfl | ⟨t, ht, hc | rfl⟩
    · decide
    · exact small c (hinfo c hc).2
    · decide
    · exact (format_chars (hn t ht) c hc).2.2
    · decide

theorem startsWith_strip_hash (s : Str) : startsWith [35] (strip (35 :: s)) = true := by
  obtain ⟨g, h, e, h1, h2⟩ := strip_decomp (35 :: s)
  have hg : g = [] := by
    cases g with
    | nil => rfl
    | cons c g =>
      simp only [List.cons_append, List.cons.injEq] at e
      have := h1 c (by simp)
      rw [← e.1] at this
      exact absurd this (by decide)
  subst hg
  rw [List.nil_append] at e
  cases hs : strip (35 :: s) with
  | nil =>
    rw [hs, List.nil_append] at e
    have := h2 35 (by rw [← e]; simp)
    exact absurd this (by decide)
  | cons c r =>
    rw [hs] at e
    simp only [List.cons_append, List.cons.injEq] at e
    rw [← e.1]
    simp [startsWith]

theorem ppReadVocab_written {info : Str} (hinfo : ∀ c ∈ info, 32 ≤ c ∧ c ≤ 126) {tbl : List Ty} (hi : Indexed tbl) (hk : KidsEarlier tbl)
    (hn : ∀ t ∈ tbl, NameOK t.name) : ppReadVocab (((35 :: info) :: tbl.map Ty.format).flatMap (· ++ [10])) = .ok tbl := by
  have hchars : ∀ l ∈ (35 :: info) :: tbl.map Ty.format, 10 ∉ l ∧ 13 ∉ l := by
    intro l hl
    rcases List.mem_cons.1 hl with rfl | hl
    · simp only [List.mem_cons, not_or]
      exact ⟨⟨by omega, fun hc => by have := hinfo _ hc; omega⟩, ⟨by omega, fun hc => by have := hinfo _ hc; omega⟩⟩
    · obtain ⟨t, ht, rfl⟩ := List.mem_map.1 hl
      exact ⟨fun hc => (format_chars (hn t ht) _ hc).1 rfl, fun hc => (format_chars (hn t ht) _ hc).2.1 rfl⟩
  have hcr : 13 ∉ ((35 :: info) :: tbl.map Ty.format).flatMap (· ++ [10]) := by
    simp only [List.mem_flatMap, not_exists, not_and]
    intro l hl hc
    rcases List.mem_append.1 hc with hc | hc
    · exact (hchars l hl).2 hc
    · simp at hc
  simp only [ppReadVocab]
  rw [univNewlines_id hcr, fileLines_rows _ (fun l hl => (hchars l hl).1)]
  simp only [List.map_cons, startsWith_strip_hash, if_true]
  have := readTypes_format tbl hi hk (fun t ht hc => (hn t ht _ hc).1 rfl) (List.map strip (tbl.map Ty.format)).length tbl [] rfl
  rw [List.map_map] at this ⊢
  have e : (strip ∘ Ty.format) = fun t => strip t.format := rfl
  rw [e] at this ⊢
  rw [this]

/-- C86: writing a well-formed table and reading the file restores the table, whatever printable header text. -/
theorem C86_round_trip {info : Str} (hinfo : ∀ c ∈ info, 32 ≤ c ∧ c ≤ 126) {tbl : List Ty} (hi : Indexed tbl) (hk : KidsEarlier tbl)
    (hn : ∀ t ∈ tbl, ∀ c ∈ t.name, c ≠ 9 ∧ c ≠ 10 ∧ c ≠ 13 ∧ ¬ (0xD800 ≤ c ∧ c ≤ 0xDFFF)) :
    ∃ text, ppWriteVocab info tbl = .ok text ∧ ppReadVocab text = .ok tbl := by
  have hn' : ∀ t ∈ tbl, NameOK t.name := fun t ht c hc => by
    obtain ⟨a, b, c', d⟩ := hn t ht c hc
    exact ⟨a, b, c', by simpa [isSurrogate] using d⟩
  exact ⟨_, ppWriteVocab_text hinfo hi hn', ppReadVocab_written hinfo hi hk hn'⟩

/-- C86: a table with an entry out of place is refused. -/
theorem C86_out_of_place_refused (info : Str) {tbl : List Ty} (h : ¬ Indexed tbl) : ppWriteVocab info tbl = .error .assertion := by
  simp only [Indexed, not_forall] at h
  obtain ⟨i, t, ht, hne⟩ := h
  simp only [ppWriteVocab, writeRows_error tbl 0 ⟨i, t, ht, by omega⟩]

/-- C86: a file without header reads the same: the first line is skipped only if it begins with `#`. -/
theorem C86_headless {tbl : List Ty} (hne : tbl ≠ []) (hi : Indexed tbl) (hk : KidsEarlier tbl)
    (hn : ∀ t ∈ tbl, ∀ c ∈ t.name, c ≠ 9 ∧ c ≠ 10 ∧ c ≠ 13 ∧ ¬ (0xD800 ≤ c ∧ c ≤ 0xDFFF)) :
    ppReadVocab (tbl.flatMap fun t => t.format ++ [10]) = .ok tbl := by
  have hn' : ∀ t ∈ tbl, NameOK t.name := fun t ht c hc => by
    obtain ⟨a, b, c', d⟩ := hn t ht c hc
    exact ⟨a, b, c', by simpa [isSurrogate] using d⟩
  have hchars : ∀ l ∈ tbl.map Ty.format, 10 ∉ l ∧ 13 ∉ l := by
    intro l hl
    obtain ⟨t, ht, rfl⟩ := List.mem_map.1 hl
    exact ⟨fun hc => (format_chars (hn' t ht) _ hc).1 rfl, fun hc => (format_chars (hn' t ht) _ hc).2.1 rfl⟩
  have et : (tbl.flatMap fun t => t.format ++ [10]) = (tbl.map Ty.format).flatMap (· ++ [10]) := by simp [List.flatMap_map]
  have hcr : 13 ∉ (tbl.map Ty.format).flatMap (· ++ [10]) := by
    simp only [List.mem_flatMap, not_exists, not_and]
    intro l hl hc
    rcases List.mem_append.1 hc with hc | hc
    · exact (hchars l hl).2 hc
    · simp at hc
  have key := readTypes_format tbl hi hk (fun t ht hc => (hn' t ht _ hc).1 rfl) (List.map strip (tbl.map Ty.format)).length tbl [] rfl
  cases tbl with
  | nil => exact absurd rfl hne
  | cons t tbl =>
    simp only [ppReadVocab]
    rw [et, univNewlines_id hcr, fileLines_rows _ (fun l hl => (hchars l hl).1)]
    have hs : startsWith [35] (strip t.format) = false := by
      have h0 : t.idx = 0 := hi 0 t rfl
      have : ∃ r, t.format = 48 :: 9 :: r := by
        unfold Ty.format
        rw [h0]
        exact ⟨_, rfl⟩
      obtain ⟨r, hr⟩ := this
      obtain ⟨g, h, e, h1, h2⟩ := strip_decomp t.format
      rw [hr] at e
      have hg : g = [] := by
        cases g with
        | nil => rfl
        | cons c g =>
          simp only [List.cons_append, List.cons.injEq] at e
          have := h1 c (by simp)
          rw [← e.1] at this
          exact absurd this (by decide)
      subst hg
      rw [← hr, List.nil_append] at e
      cases hs : strip t.format with
      | nil => rfl
      | cons c r' =>
        rw [hs, hr] at e
        simp only [List.cons_append, List.cons.injEq] at e
        rw [← e.1]
        rfl
    simp only [List.map_cons, hs, Bool.false_eq_true, if_false]
    rw [List.map_map] at key ⊢
    have e : (strip ∘ Ty.format) = fun t => strip t.format := rfl
    rw [e] at key ⊢
    exact key

/-! ### learned tables -/

theorem kidsEarlier_of {v0 v : List Ty} (h0 : ∀ t ∈ v0, t.kids = []) (ht : v.take v0.length = v0)
    (h : ∀ (i : Nat) (t : Ty), v0.length ≤ i → v[i]? = some t → ∃ ja jb ta tb, ja < i ∧ jb < i ∧ v[ja]? = some ta ∧ v[jb]? = some tb ∧
      t.kids = [ta, tb] ∧ t.name = ta.name ++ tb.name) : KidsEarlier v := by
  intro i t hit k hk
  by_cases hi : i < v0.length
  · have hm : t ∈ v0 := by
      rw [← ht]
      exact List.mem_of_getElem? (by rw [List.getElem?_take_of_lt hi]; exact hit)
    rw [h0 t hm] at hk
    cases hk
  · obtain ⟨ja, jb, ta, tb, a1, a2, a3, a4, a5, _⟩ := h i t (by omega) hit
    rw [a5] at hk
    rcases List.mem_cons.1 hk with rfl | hk
    · exact ⟨ja, a1, a3⟩
    · rw [List.mem_singleton.1 hk]; exact ⟨jb, a2, a4⟩

theorem kidsEarlier_extend {v0 v : List Ty} (h0 : KidsEarlier v0) (ht : v.take v0.length = v0)
    (h : ∀ (i : Nat) (t : Ty), v0.length ≤ i → v[i]? = some t → ∃ ja jb ta tb, ja < i ∧ jb < i ∧ v[ja]? = some ta ∧ v[jb]? = some tb ∧
      t.kids = [ta, tb] ∧ t.name = ta.name ++ tb.name) : KidsEarlier v := by
  intro i t hit k hk
  by_cases hi : i < v0.length
  · have hm : v0[i]? = some t := by rw [← ht, List.getElem?_take_of_lt hi]; exact hit
    obtain ⟨j, hj, hjk⟩ := h0 i t hm k hk
    refine ⟨j, hj, ?_⟩
    rw [← ht, List.getElem?_take_of_lt (by omega)] at hjk
    exact hjk
  · obtain ⟨ja, jb, ta, tb, a1, a2, a3, a4, a5, _⟩ := h i t (by omega) hit
    rw [a5] at hk
    rcases List.mem_cons.1 hk with rfl | hk
    · exact ⟨ja, a1, a3⟩
    · rw [List.mem_singleton.1 hk]; exact ⟨jb, a2, a4⟩

/-- what holds of the characters of the first names holds of those of all names -/
theorem names_extend {P : Nat → Prop} {v0 v : List Ty} (h0 : ∀ t ∈ v0, t.name ≠ [] ∧ ∀ c ∈ t.name, P c) (ht : v.take v0.length = v0)
    (h : ∀ (i : Nat) (t : Ty), v0.length ≤ i → v[i]? = some t → ∃ ja jb ta tb, ja < i ∧ jb < i ∧ v[ja]? = some ta ∧ v[jb]? = some tb ∧
      t.kids = [ta, tb] ∧ t.name = ta.name ++ tb.name) : ∀ t ∈ v, t.name ≠ [] ∧ ∀ c ∈ t.name, P c := by
  have key : ∀ (i : Nat) (t : Ty), v[i]? = some t → t.name ≠ [] ∧ ∀ c ∈ t.name, P c := by
    intro i
    induction i using Nat.strong_induction_on with
    | _ i ih =>
      intro t hit
      by_cases hi : i < v0.length
      · exact h0 t (by rw [← ht]; exact List.mem_of_getElem? (by rw [List.getElem?_take_of_lt hi]; exact hit))
      · obtain ⟨ja, jb, ta, tb, g1, g2, g3, g4, g5, g6⟩ := h i t (by omega) hit
        have ha := ih ja g1 ta g3
        have hb := ih jb g2 tb g4
        rw [g6]
        refine ⟨by simp [ha.1], fun c hc => ?_⟩
        rcases List.mem_append.1 hc with hc | hc
        · exact ha.2 c hc
        · exact hb.2 c hc
  intro t htm
  obtain ⟨i, hi⟩ := List.mem_iff_getElem?.1 htm
  exact key i t hi

/-- the table of `learn_subwords_from_corpus` -/
theorem ppSubwords_table {ord : Nat → List Nat → List Nat} {lines : List Str} {toks : List (List Str)}
    (ht : List.Forall₂ Tokens lines toks) {vs minEv charMin wordMin : Int} {vocab : List Ty}
    (h : ppSubwords ord (ppCounts lines) vs minEv charMin wordMin = .ok vocab) :
    Indexed vocab ∧ KidsEarlier vocab ∧ (names vocab).take 6 = reservedNames ∧ (vs ≠ -1 → (vocab.length : Int) ≤ vs) ∧
    (∀ t ∈ vocab, t.name ≠ [] ∧ ∀ c ∈ t.name, (∃ n ∈ reservedNames, c ∈ n) ∨ ∃ w ∈ toks.flatten, c ∈ w) ∧
    (charMin = 1 → wordMin = 1 → ∀ w ∈ toks.flatten, ∀ c ∈ w, [c] ∈ names vocab) := by
  obtain ⟨t1, t2, t3⟩ := ppCounts_spec ht
  by_cases hcm : 1 ≤ charMin
  swap
  · rw [C84_options (.inl (by omega))] at h; cases h
  by_cases hwm : 1 ≤ wordMin
  swap
  · rw [C84_options (.inr (by omega))] at h; cases h
  obtain ⟨tf1, cf, v0, C, a1, a2, a3, a4, a5, a6, a7, a8, a9, a10⟩ :=
    ppSubwords_cases (ord := ord) t1 t3 (vs := vs) (minEv := minEv) hcm hwm
  rw [a10] at h
  have hres : (names v0).take 6 = reservedNames := by
    have := congrArg (List.map (·.1)) a4.reserved
    simp only [List.map_map] at this
    rw [names, ← List.map_take]
    exact this
  have h6 : 6 ≤ v0.length := by
    have := congrArg List.length hres
    simp [names, reservedNames] at this
    omega
  have hv0 : ∀ t ∈ v0, t.kids = [] ∧ t.name ≠ [] ∧ ∀ c ∈ t.name, (∃ n ∈ reservedNames, c ∈ n) ∨ ∃ w ∈ toks.flatten, c ∈ w := by
    intro t htm
    rw [← List.take_append_drop 6 v0] at htm
    rcases List.mem_append.1 htm with htm | htm
    · have h1 : (t.name, t.level, t.kids) ∈ (v0.take 6).map (fun t => (t.name, t.level, t.kids)) := List.mem_map.2 ⟨t, htm, rfl⟩
      rw [a4.reserved] at h1
      have h2 : ∀ x ∈ ([(lit "<pad>", -1, []), (lit "<unk>", -1, []), (lit "<s>", -1, []), (lit "</s>", -1, []),
        (lit "<cls>", -1, []), ([0x2581], -1, [])] : List (Str × Int × List Ty)), x.2.2 = [] ∧ x.1 ≠ [] := by decide
      refine ⟨(h2 _ h1).1, (h2 _ h1).2, fun c hc => .inl ⟨t.name, ?_, hc⟩⟩
      rw [← hres, names, ← List.map_take]
      exact List.mem_map.2 ⟨t, htm, rfl⟩
    · obtain ⟨g1, _, g3⟩ := a4.counted t htm
      obtain ⟨ch, hch, hf, hp⟩ := (a3 _ _).1 g1
      refine ⟨g3, by rw [hch]; simp, fun c hc => ?_⟩
      rw [hch, List.mem_singleton] at hc
      subst hc
      rcases chCount_pos (hf ▸ hp) with h | ⟨p, hp, hc⟩
      · left; exact ⟨[0x2581], by decide, by simp [h]⟩
      · exact .inr ⟨p.1, ((t2 _ _).1 ((a1 p).1 hp).1).1, hc⟩
  have hcov : charMin = 1 → wordMin = 1 → ∀ w ∈ toks.flatten, ∀ c ∈ w, [c] ∈ names v0 := by
    intro hc1 hw1 w hw c hc
    have hpos : ∀ p ∈ tf1, 1 ≤ p.2 := fun p hp => by have := ((a1 p).1 hp).2; omega
    have hin : (w, (toks.flatten.count w : Int)) ∈ tf1 := by
      rw [a1]
      refine ⟨(t2 _ _).2 ⟨hw, rfl⟩, ?_⟩
      have := List.count_pos_iff.2 hw
      simp only
      omega
    have hp := chCount_pos_of_mem hpos hin hc
    exact a5 ([c], chCount tf1 c) ((a3 _ _).2 ⟨c, rfl, rfl, hp⟩) (by simp only; omega)
  have fin0 : ∀ v, v.take v0.length = v0 → (names v).take 6 = reservedNames ∧ ∀ n ∈ names v0, n ∈ names v := by
    intro v hv
    constructor
    · rw [← hres, ← hv]
      simp only [names, List.map_take, List.take_take]
      rw [Nat.min_eq_left h6]
    · intro n hn
      rw [← hv, names, List.map_take] at hn
      exact List.mem_of_mem_take hn
  split at h
  · rename_i hvs
    have e : v0 = vocab := by injection h
    subst e
    obtain ⟨f1, f2⟩ := fin0 v0 (List.take_length)
    exact ⟨a4.indexed, kidsEarlier_of (v0 := v0) (fun t htm => (hv0 t htm).1) List.take_length
      (fun i t hl hi => by have := (List.getElem?_eq_some_iff.1 hi).1; omega), f1, fun hne => absurd hvs hne,
      fun t htm => (hv0 t htm).2, hcov⟩
  · split at h
    · rename_i _ hlt
      obtain ⟨w1, w2, w3, w4⟩ := C83_table h
      obtain ⟨f1, f2⟩ := fin0 vocab w2
      have w4' : ∀ (i : Nat) (t : Ty), v0.length ≤ i → vocab[i]? = some t → ∃ ja jb ta tb, ja < i ∧ jb < i ∧ vocab[ja]? = some ta ∧
          vocab[jb]? = some tb ∧ t.kids = [ta, tb] ∧ t.name = ta.name ++ tb.name := fun i t hi hit => (w4 i t hi hit).2.2
      refine ⟨w1, kidsEarlier_of (fun t htm => (hv0 t htm).1) w2 w4', f1, fun _ => by omega, ?_, fun h1 h2 w hw c hc => f2 _ (hcov h1 h2 w hw c hc)⟩
      exact names_extend (P := fun c => (∃ n ∈ reservedNames, c ∈ n) ∨ ∃ w ∈ toks.flatten, c ∈ w) (fun t htm => (hv0 t htm).2) w2 w4'
    · cases h

/-- C86: a learned vocabulary is accepted by the codec, and its file restores it, if the text has no surrogates. -/
theorem C86_learned {ord : Nat → List Nat → List Nat} {lines : List Str} {toks : List (List Str)} (ht : List.Forall₂ Tokens lines toks)
    (hsur : ∀ w ∈ toks.flatten, ∀ c ∈ w, ¬ (0xD800 ≤ c ∧ c ≤ 0xDFFF)) {vs minEv charMin wordMin : Int} {vocab : List Ty}
    (h : ppSubwords ord (ppCounts lines) vs minEv charMin wordMin = .ok vocab) {info : Str} (hinfo : ∀ c ∈ info, 32 ≤ c ∧ c ≤ 126) :
    (∃ text, ppWriteVocab info vocab = .ok text ∧ ppReadVocab text = .ok vocab) ∧ ∃ c, PpCodec.make vocab = .ok c := by
  obtain ⟨h1, h2, h3, h4, h5, _⟩ := ppSubwords_table ht h
  have htok : ∀ w ∈ toks.flatten, IsToken w := by
    intro w hw
    obtain ⟨ws, hws, hww⟩ := List.mem_flatten.1 hw
    obtain ⟨l, _, hl⟩ := mem_of_forall₂_right ht ws hws
    exact split_isToken (by rw [split_of_tokens hl]; exact hww)
  constructor
  · refine C86_round_trip hinfo h1 h2 ?_
    intro t htm c hc
    rcases (h5 t htm).2 c hc with ⟨n, hn, hcn⟩ | ⟨w, hw, hcw⟩
    · have : ∀ n ∈ reservedNames, ∀ c ∈ n, c ≠ 9 ∧ c ≠ 10 ∧ c ≠ 13 ∧ ¬ (0xD800 ≤ c ∧ c ≤ 0xDFFF) := by decide
      exact this n hn c hcn
    · have hw' := (htok w hw).2 c hcw
      refine ⟨?_, ?_, ?_, hsur w hw c hcw⟩ <;> (rintro rfl; exact absurd hw' (by decide))
  · refine (C85_accepts vocab).2 ⟨?_, fun t htm => (h5 t htm).1⟩
    rintro rfl
    simp [names, reservedNames] at h3

example : (ppSubwords ordId (ppCounts [lit "ab ac ab "]) (-1) 2 1 1).toOption.bind (fun v => (ppWriteVocab (lit "{}") v).toOption) =
    some (lit "#{}\n0\t<pad>\t-1\t-1\t\n1\t<unk>\t-1\t-1\t\n2\t<s>\t-1\t-1\t\n3\t</s>\t-1\t-1\t\n4\t<cls>\t-1\t-1\t\n5\t▁\t-1\t-1\t\n6\ta\t0\t3\t\n7\tb\t0\t2\t\n8\tc\t0\t1\t\n") := by
  decide +kernel
example : (ppReadVocab (lit "#{ }\n0\ta\t0\t3\t\n1\tb\t0\t-1\t\n2\tab\t1\t2\t0 1\n")).toOption.map (·.map fun t => (t.name, t.kids.length)) =
    some [(lit "a", 0), (lit "b", 0), (lit "ab", 2)] := by decide +kernel

end Verif
