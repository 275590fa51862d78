import Verif.Model.QualityCli
import Verif.Lemmas.Decimal
import Verif.Props.QualityFloat
import Verif.Props.Cli
import Verif.Props.Main
import Verif.Props.File
import Verif.Props.Shrink
/-!
# C120: the command of `nlcodec/qestim.py`
-/

namespace Verif
open Spec

/-- the exact estimate and the computed one agree in all counts -/
theorem estimate_same (npSum : List ℚ → ℚ) {s : Scheme} {lines : List Str} {q : CodecQuality} (h : estimate s lines = .ok q) :
    ∃ q', estimateF64 npSum s lines = .ok q' ∧ q'.nTypes = q.nTypes ∧ q'.nTokens = q.nTokens ∧ q'.unkCount = q.unkCount ∧
      Nearest64 q.meanSeqLen q'.meanSeqLen ∧ (q'.imbalance = none ↔ q.imbalance = none) := by
  unfold estimate at h
  unfold estimateF64
  cases hst : statsLoop s lines (List.replicate s.table.length 0) 0 with
  | error e => rw [hst] at h; cases h
  | ok r =>
    obtain ⟨stats, n⟩ := r
    have hn := statsLoop_nonneg hst (by intro x hx; rw [(List.mem_replicate.1 hx).2])
    rw [hst] at h
    dsimp only at h ⊢
    by_cases hn0 : n = 0
    · rw [if_pos hn0] at h; cases h
    rw [if_neg hn0] at h ⊢
    cases hu : s.unkIdx with
    | error e => rw [hu] at h; cases h
    | ok u =>
      rw [hu] at h
      dsimp only at h ⊢
      cases hp : pyIndex stats u with
      | error e => rw [hp] at h; cases h
      | ok unk =>
        rw [hp] at h
        have hne : stats ≠ [] := by
          rintro rfl
          simp only [pyIndex] at hp
          split at hp <;> simp at hp
        have hk : stats.length ≠ 0 := fun h => hne (List.length_eq_zero_iff.1 h)
        dsimp only at h ⊢
        rw [unevenness_emd hn hne] at h
        have hsum := toNat_sum hn
        have hF : ∃ v, emdF64 npSum (stats.map Int.toNat) = .ok v ∧ (v = none ↔ isum stats = 0) := by
          unfold emdF64
          dsimp only
          rw [List.length_map, if_neg hk]
          split
          · exact ⟨_, rfl, by simp; omega⟩
          · exact ⟨_, rfl, by simp; omega⟩
        obtain ⟨v, hv, hv0⟩ := hF
        rw [hv]
        dsimp only at h ⊢
        rw [← Except.ok.inj h]
        refine ⟨_, rfl, rfl, rfl, rfl, rnd64_nearest _, ?_⟩
        dsimp only
        rw [hv0]
        split <;> simp_all

theorem numeral_intStr {i : Int} (h : 0 ≤ i) (j : Nat) : numeral (intStr i) = some j ↔ i = j := by
  obtain ⟨n, rfl⟩ := Int.eq_ofNat_of_zero_le h
  rw [intStr_nat, numeral_digs (by rw [← intStr_nat]; exact intStr_ne_nil _) (digs_natStr n), dval_natStr]
  simp

theorem lines_of_rows : ∀ rows : List Str, (∀ r ∈ rows, NoBreak r) → Lines (rows.flatMap (· ++ [10])) rows
  | [], _ => .nil
  | r :: rows, h => by
    rw [List.flatMap_cons, List.append_assoc, List.singleton_append]
    exact .lf (h r (by simp)) (lines_of_rows rows fun x hx => h x (by simp [hx]))

theorem inpLines_length {data : Str} {ls : List Str} (h : Lines data ls) : (inpLines data).length = ls.length :=
  (inpLines_spec h).length_eq.symm

theorem load_made {J : Json} {model : Str} {s : Scheme} (h : loadScheme J model = .ok s) :
    ∃ tbl, Scheme.make s.kind tbl = .ok s ∧ Indexed tbl := by
  simp only [loadScheme] at h
  cases hr : readVocab J model with
  | error e => rw [hr] at h; cases h
  | ok r =>
    obtain ⟨types, hd⟩ := r
    rw [hr] at h
    dsimp only at h
    cases hk : headerKind hd with
    | error e => rw [hk] at h; cases h
    | ok k =>
      rw [hk] at h
      dsimp only at h
      have : s.kind = k := scheme_kind h
      exact ⟨types, by rw [this]; exact h, (C14_read_wellformed_partial J hr).1⟩

/-- C120 (word, character and bpe models): on a text of one or more lines the estimate counts what `nlcodec encode -idx` writes for this text with
this model: `n_types` is the size of the vocabulary, `n_tokens` the number of words written, `unk_count` how many of them are the numeral 1, and
`mean_seq_len` the float nearest to their number per line of the text. The imbalance is `nan` exactly if nothing but line breaks is written; otherwise,
with at most 2^26 types and 2^51 tokens, it lies in [0, 1) and is that of the frequencies of the numerals up to (n_types + 4) / 2^53.
Missing: byte models, see `C120_byte_refuted`, and class models, which have no unknown type (`C60_class_refuted`). -/
theorem C120_counts_partial {J : Json} {npSum : List ℚ → ℚ} (hS : ∀ l, RoundedSum rnd64 l (npSum l)) {model data : Str} {s : Scheme}
    (hm : loadScheme J model = .ok s) (hk : s.kind = .word ∨ s.kind = .char ∨ s.kind = .bpe) {ls : List Str} (hl : Lines data ls) (hne : ls ≠ []) :
    ∃ out rows wss q, cliEncode s true data = (out, none) ∧ Lines out rows ∧ List.Forall₂ Tokens rows wss ∧ rows.length = ls.length ∧
      qestimMain J npSum model data = .ok q ∧ q.nTypes = s.table.length ∧ q.nTokens = wss.flatten.length ∧
      q.unkCount = wss.flatten.countP (fun w => decide (numeral w = some 1)) ∧
      Nearest64 ((wss.flatten.length : ℚ) / ls.length) q.meanSeqLen ∧ (q.imbalance = none ↔ wss.flatten = []) ∧
      (s.table.length ≤ 2 ^ 26 → wss.flatten.length ≤ 2 ^ 51 → ∀ d, q.imbalance = some d → 0 ≤ d ∧ d < 1 ∧
        |d - unevenness ((List.range s.table.length).map fun j => wss.flatten.countP fun w => decide (numeral w = some j))| ≤
          (s.table.length + 4) / 2 ^ 53) := by
  obtain ⟨tbl, hmk, hi⟩ := load_made hm
  have hne' : inpLines data ≠ [] := by
    intro e
    have := inpLines_length hl
    rw [e] at this
    exact hne (List.length_eq_zero_iff.1 this.symm)
  obtain ⟨ht, _, hv, hp⟩ := encode_pieces hk hmk (fun _ => hi)
  have hnc : s.kind ≠ .clasz := by rcases hk with e | e | e <;> rw [e] <;> decide
  obtain ⟨pss, idss, q, h1, h2, h3, h4, h5, h6, h7, h8, h9⟩ := C60_estimate hk hmk (fun _ => hi) hne'
  subst ht
  have hids : idss = pss.map (·.map s.idOf) := by
    clear * - h1 h2 hp
    generalize inpLines data = ls at h1 h2
    induction h1 generalizing idss with
    | nil => cases h2; rfl
    | @cons l ps _ _ a _ ih =>
      cases h2 with
      | cons b t =>
        obtain ⟨ps', e1, e2⟩ := hp l
        rw [a] at e1
        rw [b] at e2
        rw [ih _ t, Except.ok.inj e1, Except.ok.inj e2]
        rfl
  have hnn : ∀ i ∈ idss.flatten, 0 ≤ i := by
    intro i hi
    rw [hids, ← List.map_flatten] at hi
    obtain ⟨p, _, rfl⟩ := List.mem_map.1 hi
    exact (idOf_range hnc hv p).1
  have hcount : ∀ j : Nat, (idss.flatten.map intStr).countP (fun w => decide (numeral w = some j)) = idss.flatten.count (j : Int) := by
    intro j
    rw [List.countP_map, List.count]
    apply List.countP_congr
    intro i hi
    simp [numeral_intStr (hnn i hi)]
  have hflat : (idss.map (·.map intStr)).flatten = idss.flatten.map intStr := by rw [List.map_flatten]
  have hlen : idss.flatten.length = pss.flatten.length := by rw [hids, ← List.map_flatten, List.length_map]
  have hrows : ∀ r ∈ idss.map (fun ids => join [32] (ids.map intStr)), NoBreak r := by
    intro r hr
    obtain ⟨ids, _, rfl⟩ := List.mem_map.1 hr
    exact join_noBreak (by
      intro w hw
      obtain ⟨i, _, rfl⟩ := List.mem_map.1 hw
      exact intStr_isToken i)
  obtain ⟨q', g1, g2, g3, g4, g5, g6⟩ := estimate_same npSum h3
  have hunk : (q.unkCount : Int) = (idss.flatten.count (1 : Int) : Nat) := by
    rw [h6, hids, ← List.map_flatten, List.count, List.countP_map]
    congr 1
    apply List.countP_congr
    intro p _
    have := idOf_eq_unk hnc hv p
    simp only [Function.comp, beq_iff_eq, decide_eq_true_eq]
    exact this.symm
  refine ⟨_, idss.map (fun ids => join [32] (ids.map intStr)), idss.map (·.map intStr), q', ?_, lines_of_rows _ hrows, ?_, ?_, ?_, ?_, ?_, ?_, ?_, ?_, ?_⟩
  · rw [cliEncode, genMap_all (bs := idss.map (fun ids => join [32] (ids.map intStr)))]
    · rfl
    · rw [List.forall₂_map_right_iff]
      exact h2.imp fun a b h => by simp [encodeLine, h]
  · rw [List.forall₂_map_left_iff, List.forall₂_map_right_iff, List.forall₂_same]
    intro ids _
    have := tokens_split (join [32] (ids.map intStr))
    rwa [split_join_space (by
      intro w hw
      obtain ⟨i, _, rfl⟩ := List.mem_map.1 hw
      exact intStr_isToken i)] at this
  · rw [List.length_map, ← h2.length_eq, inpLines_length hl]
  · rw [qestimMain, hm]; exact g1
  · rw [g2, h4]
  · rw [g3, h5, hflat, List.length_map, hlen]
  · rw [g4, hunk, hflat, hcount]; rfl
  · rw [h7, inpLines_length hl] at g5
    rw [hflat, List.length_map, hlen]
    exact g5
  · rw [g6, h8, hflat, List.map_eq_nil_iff, ← List.length_eq_zero_iff, ← List.length_eq_zero_iff, hlen]
  · intro h26 h51 d hd
    rw [hflat, List.length_map, hlen] at h51
    obtain ⟨q2, k1, _, _, _, _, _, k2⟩ := (C60_estimate_float hS s (inpLines data)).2 q h3 (by rw [h4]; exact h26) (by rw [h5]; exact_mod_cast h51)
    rw [g1] at k1
    rw [← Except.ok.inj k1] at k2
    cases hq : q.imbalance with
    | none => rw [g6.2 hq] at hd; cases hd
    | some e =>
      obtain ⟨r1, r2, r3, _⟩ := k2 e d hq hd
      refine ⟨r1, r2, ?_⟩
      have he : e = unevenness ((List.range s.table.length).map fun j => (idss.map (·.map intStr)).flatten.countP fun w => decide (numeral w = some j)) := by
        rw [hq] at h9
        have hE := unevenness_emd (stats := (List.range s.table.length).map fun j : Nat => ((idss.flatten.count (j : Int) : Nat) : Int)) (by
            intro x hx
            obtain ⟨j, _, rfl⟩ := List.mem_map.1 hx
            exact Int.natCast_nonneg _) (by
            intro e0
            obtain ⟨t1, ht1, _⟩ := validateReserved_ok hv 1 (by omega)
            have : s.table.length = 0 := by simpa using e0
            rw [List.length_eq_zero_iff.1 this] at ht1
            simp at ht1)
        rw [List.map_map] at hE
        have hcomp : ((fun (x : Int) => (x : ℚ)) ∘ fun j : Nat => ((idss.flatten.count (j : Int) : Nat) : Int)) =
            fun j : Nat => (idss.flatten.count (j : Int) : ℚ) := by
          funext j; simp
        rw [hcomp, h9] at hE
        have hE' := Except.ok.inj hE
        split at hE'
        · cases hE'
        · rw [Option.some.inj hE', List.map_map]
          congr 1
          apply List.map_congr_left
          intro j _
          rw [hflat, hcount]
          simp
      rw [← he]
      rw [h4] at r3
      exact r3

/-- C120: no text, no estimate. -/
theorem C120_no_lines {J : Json} (npSum : List ℚ → ℚ) {model : Str} {s : Scheme} (hm : loadScheme J model = .ok s) :
    qestimMain J npSum model [] = .error .zeroDiv := by
  rw [qestimMain, hm]
  simp [inpLines, univNewlines, keepLines, estimateF64, statsLoop]

/-- C120 is false for byte models: wherever `nlcodec encode` goes through on a text that is not empty, the estimate fails. -/
theorem C120_byte_refuted {J : Json} {npSum : List ℚ → ℚ} (hS : ∀ l, RoundedSum rnd64 l (npSum l)) {model data out : Str} {s : Scheme}
    (hm : loadScheme J model = .ok s) (hk : s.kind = .byte) (hd : data ≠ []) (he : cliEncode s true data = (out, none)) :
    qestimMain J npSum model data = .error .attr := by
  obtain ⟨tbl, hmk, _⟩ := load_made hm
  rw [hk] at hmk
  have hne : inpLines data ≠ [] := by
    obtain ⟨ls, hl⟩ := lines_exist data
    intro e
    have h0 := inpLines_length hl
    rw [e] at h0
    rw [List.length_eq_zero_iff.1 h0.symm] at hl
    cases hl
    exact hd rfl
  have key : ∀ l : List Str, (genMap (encodeLine s true) none l).exc = none → ∃ idss, List.Forall₂ (fun l ids => s.encode l = .ok ids) l idss := by
    intro l
    induction l with
    | nil => exact fun _ => ⟨[], .nil⟩
    | cons a l ih =>
      intro h
      simp only [genMap, encodeLine, if_true] at h
      cases ha : s.encode a with
      | error e => rw [ha] at h; cases h
      | ok ids =>
        rw [ha] at h
        obtain ⟨r, hr⟩ := ih h
        exact ⟨ids :: r, .cons ha hr⟩
  obtain ⟨idss, hids⟩ := key (inpLines data) (congrArg Prod.snd he)
  rw [qestimMain, hm]
  exact ((C60_estimate_float hS s (inpLines data)).1 _).1 (C60_byte_refuted hmk hne hids)

/-- what happens with a vocabulary of words and one unknown word; the sum is exact here -/
example : (withScheme .word (exTable 1 ["a", "b"]) fun s => match s.save pyJson with
      | .error e => .error e
      | .ok m => match qestimMain pyJson sumFromRight m (lit "a b\r\nx a\n\n") with
        | .error e => .error e
        | .ok q => .ok (decide (cliEncode s true (lit "a b\r\nx a\n\n") = (lit "6 7\n1 6\n\n", none) ∧
            q.nTypes = 8 ∧ q.nTokens = 4 ∧ q.unkCount = 1 ∧ q.meanSeqLen = rnd64 (4 / 3) ∧ q.imbalance = some (5 / 8)))) = .ok true := by
  decide +kernel

/-- a byte model whose file has two types only -/
example : (withScheme .byte [⟨codeToStr 97, Level.byte, 0, -1, []⟩, ⟨codeToStr 98, Level.byte, 1, -1, []⟩] fun s => match s.save pyJson with
      | .error e => .error e
      | .ok m => .ok (cliEncode s true (lit "ab"), (match qestimMain pyJson sumFromRight m (lit "ab") with
          | .error .attr => true
          | _ => false))) = .ok ((lit "0 1\n", none), true) := by decide +kernel

end Verif
