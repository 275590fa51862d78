import Verif.Props.Unknown
import Verif.Props.Io
import Verif.Props.CliClass
/-!
# Properties C01, C02, C15, C80 and C88: exactly when a text comes back unchanged
-/

namespace Verif
open Spec

/-- the names of the six reserved types -/
def Spec.special : List Str := [lit "<pad>", lit "<unk>", lit "<s>", lit "</s>", lit "<cls>", [0x2581]]

/-- room for `n` more names in a vocabulary of size `vs`; 0 or less is no limit -/
def Spec.Room (vs : Int) (n : Nat) : Prop := vs ≤ 0 ∨ 6 + (n : Int) ≤ vs ∨ n = 0

theorem special_eq : special = reservedNames := rfl

/-! ## C15 -/

theorem trimTerms_all_iff {terms : List (Str × Int)} (hpos : ∀ p ∈ terms, 1 ≤ p.2) (mf vs : Int) :
    (trimTerms terms mf vs).1.length = terms.length ↔ (∀ p ∈ terms, mf ≤ p.2) ∧ Room vs terms.length := by
  have key : ∀ t1 : List (Str × Int), ∀ u : Int, t1.length ≤ terms.length → (t1.length = terms.length ↔ ∀ p ∈ terms, mf ≤ p.2) →
      ((if 0 < vs ∧ vs < (6 + t1.length : Nat) then (t1.take (sliceBound t1.length (vs - 6)), u + isum ((t1.drop (sliceBound t1.length (vs - 6))).map (·.2)))
        else (t1, u)).1.length = terms.length ↔ (∀ p ∈ terms, mf ≤ p.2) ∧ Room vs terms.length) := by
    intro t1 u hle hfil
    rw [← hfil, Room]
    split
    · rename_i h
      simp only [List.length_take, sliceBound]
      split <;> omega
    · rename_i h
      simp only
      omega
  simp only [trimTerms]
  by_cases hm : 1 < mf
  · simp only [hm, if_true]
    exact key _ _ (List.length_filter_le _ _) (by rw [List.length_filter_eq_length_iff]; simp)
  · simp only [hm, if_false]
    exact key _ _ (le_refl _) ⟨fun _ p hp => by have := hpos p hp; omega, fun _ => rfl⟩

/-- C15: exactly when all terms get into the vocabulary, without coverage cut: when all of them are frequent enough and there is room for those that are not
reserved names. -/
theorem C15_all_iff {A : Acc} {level : Int} {tf : Dict Str Int} {lc : Option Int} {mf vs : Int} {vocab : List Ty} (hnd : (Dict.keys tf).Nodup)
    (hpos : ∀ p ∈ tf, 1 ≤ p.2) (h : getInitVocab A level tf none lc mf vs = .ok vocab) :
    (∀ p ∈ tf, p.1 ∈ names vocab) ↔
      (∀ p ∈ tf, p.1 ∉ special → mf ≤ p.2) ∧ Room vs ((tf.map (·.1)).filter fun n => decide (n ∉ special)).length := by
  obtain ⟨pre, cut, kept, rest, h1, hc, hk, hpre, rfl⟩ := getInitVocab_ok hnd h
  have hc := hc rfl
  subst hc
  rw [List.append_nil] at h1
  have hmem : ∀ p, p ∈ pre ↔ p ∈ tf ∧ p.1 ∉ special := by
    rintro ⟨n, f⟩
    rw [← h1, (sortByFreq_perm _).mem_iff, mem_popReserved hnd, special_eq]
  have hnp : (pre.map (·.1)).Nodup := by
    rw [← h1]; exact ((sortByFreq_perm _).map _).nodup_iff.2 (nodup_popReserved hnd)
  have hnd' : (tf.map (·.1)).Nodup := hnd
  have hlen : ((tf.map (·.1)).filter fun n => decide (n ∉ special)).length = pre.length := by
    have : ((tf.map (·.1)).filter fun n => decide (n ∉ special)).Perm (pre.map (·.1)) := by
      rw [List.perm_ext_iff_of_nodup (List.Nodup.filter _ hnd') hnp]
      intro n
      simp only [List.mem_filter, List.mem_map, decide_eq_true_eq, hmem]
      constructor
      · rintro ⟨⟨p, hp, rfl⟩, hn⟩; exact ⟨p, ⟨hp, hn⟩, rfl⟩
      · rintro ⟨p, ⟨hp, hn⟩, rfl⟩; exact ⟨⟨p, hp, rfl⟩, hn⟩
    simpa using this.length_eq
  have hfreq : (∀ p ∈ tf, p.1 ∉ special → mf ≤ p.2) ↔ ∀ p ∈ pre, mf ≤ p.2 :=
    ⟨fun h p hp => h p ((hmem p).1 hp).1 ((hmem p).1 hp).2, fun h p hp hn => h p ((hmem p).2 ⟨hp, hn⟩)⟩
  rw [hlen, hfreq, ← trimTerms_all_iff (fun p hp => hpos p ((hmem p).1 hp).1), ← hk, names_reserved_append]
  constructor
  · intro hall
    have hsub : pre.map (·.1) ⊆ kept.map (·.1) := by
      intro n hn
      obtain ⟨p, hp, rfl⟩ := List.mem_map.1 hn
      rcases List.mem_append.1 (hall p ((hmem p).1 hp).1) with h | h
      · exact absurd h ((hmem p).1 hp).2
      · exact h
    have := (List.subperm_of_subset hnp hsub).length_le
    have e := congrArg List.length hpre
    simp only [List.length_map, List.length_append] at this e
    omega
  · intro e p hp
    have hr : rest = [] := by
      have e' := congrArg List.length hpre
      rw [List.length_append] at e'
      exact List.length_eq_zero_iff.1 (by omega)
    by_cases hn : p.1 ∈ special
    · exact List.mem_append_left _ hn
    · refine List.mem_append_right _ (List.mem_map.2 ⟨p, ?_, rfl⟩)
      have := (hmem p).2 ⟨hp, hn⟩
      rwa [hpre, hr, List.append_nil] at this

example : (names ((getInitVocab accExact Level.word exTf none none 2 9).toOption.getD [])).drop 6 = [lit "c", lit "a", lit "b"] ∧
    (names ((getInitVocab accExact Level.word exTf none none 2 8).toOption.getD [])).drop 6 = [lit "c", lit "a"] ∧
    (names ((getInitVocab accExact Level.word exTf none none 3 9).toOption.getD [])).drop 6 = [lit "c", lit "a"] := by decide

/-! ## C01 and C02: one line -/

theorem intercalate_tokens_inj {ws vs : List Str} (h1 : ∀ w ∈ ws, IsToken w) (h2 : ∀ w ∈ vs, IsToken w)
    (e : List.intercalate [32] ws = List.intercalate [32] vs) : ws = vs := by
  rw [← join_eq_intercalate, ← join_eq_intercalate] at e
  rw [← split_join_space h1, ← split_join_space h2, e]

/-- C01: exactly which lines a word scheme restores -/
theorem C01_word_iff {tbl : List Ty} {s : Scheme} (h : Scheme.make .word tbl = .ok s) {line : Str} {ws : List Str} (hw : Tokens line ws) :
    (∃ ids, s.encode line = .ok ids ∧ s.decode ids = .ok (List.intercalate [32] ws)) ↔ ∀ w ∈ ws, w ∈ names tbl := by
  refine ⟨?_, C01_word_lossless h hw⟩
  rintro ⟨ids, e1, e2⟩ w hwm
  obtain ⟨ids', e3, e4⟩ := C01_word_round_trip h hw
  rw [e1] at e3
  cases e3
  rw [e2] at e4
  have ht : ∀ w ∈ ws, IsToken w := fun w hww => split_isToken (by rw [split_of_tokens hw]; exact hww)
  have e := intercalate_tokens_inj ht (fun v hv => by
    obtain ⟨w, hwm, rfl⟩ := List.mem_map.1 hv
    split
    · exact ht w hwm
    · exact unk_token) (Except.ok.inj e4)
  have hid : ws.map (fun w => if w ∈ names tbl then w else lit "<unk>") = ws.map id := by rw [← e, List.map_id]
  have := List.map_inj_left.1 hid w hwm
  by_contra hn
  simp only [if_neg hn, id] at this
  apply hn
  obtain ⟨t, ht, hn'⟩ := validateReserved_ok (make_word_ok h).2.2.2.2 1 (by omega)
  rw [← this]
  exact List.mem_map.2 ⟨t, List.mem_of_getElem? ht, by rw [hn']; rfl⟩

theorem flatMap_length_one {f : Nat → Str} : ∀ {x : Str}, (∀ c ∈ x, 1 ≤ (f c).length) → (x.flatMap f).length = x.length → ∀ c ∈ x, (f c).length = 1
  | [], _, _ => by simp
  | d :: x, h1, e => by
    have hle : ∀ y : Str, (∀ c ∈ y, 1 ≤ (f c).length) → y.length ≤ (y.flatMap f).length := by
      intro y
      induction y with
      | nil => simp
      | cons a y ih =>
        intro h
        have := h a (by simp)
        have := ih fun c hc => h c (by simp [hc])
        rw [List.flatMap_cons, List.length_append, List.length_cons]
        omega
    have h2 := hle x fun c hc => h1 c (by simp [hc])
    have h3 := h1 d (by simp)
    rw [List.flatMap_cons, List.length_append, List.length_cons] at e
    intro c hc
    rcases List.mem_cons.1 hc with rfl | hc
    · omega
    · exact flatMap_length_one (fun c hc => h1 c (by simp [hc])) (by omega) c hc

theorem intercalate_length_eq (a b : Nat) (ws : List Str) : (List.intercalate [a] ws).length = (List.intercalate [b] ws).length := by
  induction ws with
  | nil => rfl
  | cons w ws ih =>
    cases ws with
    | nil => rfl
    | cons v vs =>
      rw [List.intercalate_cons_cons, List.intercalate_cons_cons]
      simp only [List.length_append, List.length_cons, List.length_nil, ih]

/-- C02: exactly which lines a char scheme restores -/
theorem C02_char_iff {tbl : List Ty} {s : Scheme} (h : Scheme.make .char tbl = .ok s) {line : Str} {ws : List Str} (hw : Tokens line ws) :
    (∃ ids, s.encode line = .ok ids ∧ s.decode ids = .ok (List.intercalate [32] ws)) ↔ ∀ w ∈ ws, ∀ c ∈ w, [c] ∈ names tbl ∧ c ≠ SP := by
  refine ⟨?_, C02_char_lossless h hw⟩
  rintro ⟨ids, e1, e2⟩ w hwm c hc
  obtain ⟨ids', e3, e4⟩ := C02_char_round_trip h hw
  rw [e1] at e3
  cases e3
  rw [e2] at e4
  have e := Except.ok.inj e4
  have hsp : c ≠ SP := by
    rintro rfl
    have hin : SP ∈ List.intercalate [32] ws := mem_intercalate_of_mem hwm hc _
    rw [e] at hin
    obtain ⟨d, _, hd⟩ := List.mem_flatMap.1 hin
    split at hd
    · revert hd; decide
    · rename_i hne
      split at hd
      · exact hne (List.mem_singleton.1 hd).symm
      · revert hd; decide
  refine ⟨?_, hsp⟩
  have hone := flatMap_length_one (x := List.intercalate [SP] ws) (f := fun c => if c = SP then [32] else if [c] ∈ names tbl then [c] else lit "<unk>")
    (by intro c _; split <;> [skip; split] <;> simp [lit]) (by rw [← e]; exact intercalate_length_eq _ _ _) c (mem_intercalate_of_mem hwm hc _)
  by_contra hn
  rw [if_neg hsp, if_neg hn] at hone
  revert hone
  decide

example : ∃ s, Scheme.make .word (exTable Level.word ["a", "b"]) = .ok s := ⟨_, rfl⟩
example : (withScheme .word (exTable Level.word ["a", "b"]) fun s => match s.encode (lit "b <s>  a c") with
    | .error e => .error e
    | .ok ids => s.decode ids) = .ok (lit "b <s> a <unk>") := by decide +kernel

/-! ## C80: the text a model was learned from -/

/-- the names of one character among the reserved ones -/
theorem special_single (c : Nat) : [c] ∈ special ↔ c = SP := by
  simp [special, lit, SP]

theorem word_known_iff (A : Acc) {data : List Str} {toks : List (List Str)} (ht : List.Forall₂ Tokens data toks) {vs mf : Int} {vocab : List Ty}
    (h : learnRaw A .word data vs mf none = .ok vocab) : (∀ w ∈ toks.flatten, w ∈ names vocab) ↔
      (∀ w ∈ toks.flatten, w ∉ special → mf ≤ toks.flatten.count w) ∧ Room vs (toks.flatten.dedup.filter fun w => decide (w ∉ special)).length := by
  have hcnt := C15_counts (k := .word) data toks ht (Or.inl rfl)
  have hflat : toks.flatMap (fun ws => if Kind.word = .word then ws else (List.intercalate [0x2581] ws).map fun c => [c]) = toks.flatten := by
    simp [List.flatMap_id']
  rw [hflat] at hcnt
  have hnd : ((termFrequencies .word data).1.map (·.1)).Nodup := (termFrequencies_word data).1
  have hperm : ((termFrequencies .word data).1.map (·.1)).Perm toks.flatten.dedup := by
    rw [List.perm_ext_iff_of_nodup hnd (List.nodup_dedup _)]
    intro n
    rw [List.mem_map, List.mem_dedup]
    constructor
    · rintro ⟨⟨m, f⟩, hm, rfl⟩; exact ((hcnt m f).1 hm).1
    · intro hn; exact ⟨(n, _), (hcnt n _).2 ⟨hn, rfl⟩, rfl⟩
  have key := C15_all_iff (A := A) hnd (termFrequencies_word data).2.1 h
  rw [(hperm.filter _).length_eq] at key
  constructor
  · intro hk
    obtain ⟨h1, h2⟩ := key.1 fun p hp => hk p.1 ((hcnt p.1 p.2).1 hp).1
    exact ⟨fun w hw hn => h1 (w, _) ((hcnt w _).2 ⟨hw, rfl⟩) hn, h2⟩
  · rintro ⟨h1, h2⟩ w hw
    refine key.2 ⟨?_, h2⟩ (w, _) ((hcnt w _).2 ⟨hw, rfl⟩)
    rintro ⟨m, f⟩ hp hn
    obtain ⟨g1, g2⟩ := (hcnt m f).1 hp
    have := h1 m g1 hn
    simp only [g2]
    exact this

theorem char_known_iff (A : Acc) {data : List Str} {toks : List (List Str)} (ht : List.Forall₂ Tokens data toks) {vs mf : Int} {vocab : List Ty}
    (h : learnRaw A .char data vs mf none = .ok vocab) : (∀ c ∈ toks.flatten.flatten, [c] ∈ names vocab ∧ c ≠ SP) ↔
      SP ∉ toks.flatten.flatten ∧ (∀ c ∈ toks.flatten.flatten, mf ≤ toks.flatten.flatten.count c) ∧ Room vs toks.flatten.flatten.dedup.length := by
  by_cases hsp : SP ∈ toks.flatten.flatten
  · exact ⟨fun h => absurd rfl (h SP hsp).2, fun h => absurd hsp h.1⟩
  have hcnt := C15_counts (k := .char) data toks ht (Or.inr rfl)
  simp only [reduceCtorEq, if_false] at hcnt
  generalize hP : (toks.flatMap fun ws => (List.intercalate [0x2581] ws).map fun c => [c]) = P at hcnt
  have hPmem : ∀ n, n ∈ P ∧ n ∉ special ↔ ∃ c ∈ toks.flatten.flatten, n = [c] := by
    intro n
    rw [← hP]
    constructor
    · rintro ⟨hn, hs⟩
      obtain ⟨ws, hws, hn⟩ := List.mem_flatMap.1 hn
      obtain ⟨c, hc, rfl⟩ := List.mem_map.1 hn
      rw [← join_eq_intercalate] at hc
      rcases mem_join hc with hc | ⟨w, hw, hc⟩
      · exact absurd ((special_single c).2 (List.mem_singleton.1 hc)) hs
      · exact ⟨c, List.mem_flatten.2 ⟨w, List.mem_flatten.2 ⟨ws, hws, hw⟩, hc⟩, rfl⟩
    · rintro ⟨c, hc, rfl⟩
      refine ⟨?_, fun hs => hsp ((special_single c).1 hs ▸ hc)⟩
      obtain ⟨w, hw, hc⟩ := List.mem_flatten.1 hc
      obtain ⟨ws, hws, hw⟩ := List.mem_flatten.1 hw
      exact List.mem_flatMap.2 ⟨ws, hws, List.mem_map.2 ⟨c, mem_intercalate_of_mem hw hc _, rfl⟩⟩
  have hPcount : ∀ c, c ≠ SP → P.count [c] = toks.flatten.flatten.count c := by
    intro c hc
    have h1 : ∀ ws : List Str, ((List.intercalate [0x2581] ws).map fun c => [c]).count [c] = ws.flatten.count c := by
      intro ws
      rw [show ((List.intercalate [0x2581] ws).map fun c => [c]).count [c] = (List.intercalate [0x2581] ws).count c from
        List.count_map_of_injective _ (fun c : Nat => [c]) (fun a b e => by simpa using e) c]
      induction ws with
      | nil => rfl
      | cons w ws ih =>
        cases ws with
        | nil => simp
        | cons v vs =>
          rw [List.intercalate_cons_cons, List.count_append, List.count_append, ih, List.flatten_cons, List.count_append,
            List.count_eq_zero_of_not_mem (l := [0x2581]) (fun hm => hc (List.mem_singleton.1 hm))]
          simp only [List.flatten_cons, List.count_append, Nat.add_zero]
    rw [← hP, List.count_flatMap, List.count_flatten, List.map_flatten]
    clear * - h1
    induction toks with
    | nil => rfl
    | cons ws toks ih =>
      have := h1 ws
      rw [List.count_flatten] at this
      simp only [List.map_cons, List.sum_cons, List.flatten_cons, List.sum_append, Function.comp_apply, this] at ih ⊢
      rw [ih]
  have hnd : ((termFrequencies .char data).1.map (·.1)).Nodup := termFrequencies_nodup .char data
  have h' : getInitVocab A Level.char (termFrequencies .char data).1 none (some (termFrequencies .char data).2) mf vs = .ok vocab := h
  have key := C15_all_iff (A := A) hnd (counted_pos .char data) h
  have hlen : (((termFrequencies .char data).1.map (·.1)).filter fun n => decide (n ∉ special)).length = toks.flatten.flatten.dedup.length := by
    have : (((termFrequencies .char data).1.map (·.1)).filter fun n => decide (n ∉ special)).Perm (toks.flatten.flatten.dedup.map fun c => [c]) := by
      rw [List.perm_ext_iff_of_nodup (List.Nodup.filter _ hnd) ((List.nodup_dedup _).map fun a b e => by simpa using e)]
      intro n
      simp only [List.mem_filter, decide_eq_true_eq]
      rw [show (n ∈ (toks.flatten.flatten.dedup.map fun c => [c])) ↔ ∃ c ∈ toks.flatten.flatten, n = [c] by
        simp only [List.mem_map, List.mem_dedup, eq_comm], ← hPmem]
      refine and_congr_left fun _ => ?_
      rw [List.mem_map]
      constructor
      · rintro ⟨⟨m, f⟩, hm, rfl⟩; exact ((hcnt m f).1 hm).1
      · intro hn; exact ⟨(n, _), (hcnt n _).2 ⟨hn, rfl⟩, rfl⟩
    simpa using this.length_eq
  rw [hlen] at key
  have hall : (∀ p ∈ (termFrequencies .char data).1, p.1 ∈ names vocab) ↔ ∀ c ∈ toks.flatten.flatten, [c] ∈ names vocab ∧ c ≠ SP := by
    constructor
    · intro hk c hc
      exact ⟨hk ([c], _) ((hcnt _ _).2 ⟨((hPmem [c]).2 ⟨c, hc, rfl⟩).1, rfl⟩), fun e => hsp (e ▸ hc)⟩
    · rintro hk ⟨n, f⟩ hp
      by_cases hs : n ∈ special
      · obtain ⟨pre, cut, kept, rest, _, _, _, _, rfl⟩ := getInitVocab_ok hnd h'
        rw [names_reserved_append]
        exact List.mem_append_left _ hs
      · obtain ⟨c, hc, rfl⟩ := (hPmem n).1 ⟨((hcnt n f).1 hp).1, hs⟩
        exact (hk c hc).1
  rw [← hall, key]
  constructor
  · rintro ⟨h1, h2⟩
    refine ⟨hsp, fun c hc => ?_, h2⟩
    have hcs : c ≠ SP := fun e => hsp (e ▸ hc)
    have := h1 ([c], _) ((hcnt _ _).2 ⟨((hPmem [c]).2 ⟨c, hc, rfl⟩).1, rfl⟩) ((hPmem [c]).2 ⟨c, hc, rfl⟩).2
    simpa only [hPcount c hcs] using this
  · rintro ⟨_, h1, h2⟩
    refine ⟨?_, h2⟩
    rintro ⟨n, f⟩ hp hn
    obtain ⟨c, hc, rfl⟩ := (hPmem n).1 ⟨((hcnt n f).1 hp).1, hn⟩
    rw [((hcnt _ f).1 hp).2, hPcount c fun e => hsp (e ▸ hc)]
    exact h1 c hc

theorem forall₂_iff_flatten {data : List Str} {toks : List (List Str)} (ht : List.Forall₂ Tokens data toks) {R : Str → List Str → Prop} {p : Str → Prop}
    (h : ∀ {l ws}, Tokens l ws → (R l ws ↔ ∀ w ∈ ws, p w)) : List.Forall₂ R data toks ↔ ∀ w ∈ toks.flatten, p w := by
  induction ht with
  | nil => simp
  | cons hl _ ih =>
    rw [List.forall₂_cons, h hl, ih, List.flatten_cons]
    simp only [List.mem_append, or_imp, forall_and]

/-- C80 for words: exactly when a word model restores all lines of the text it was learned from (no coverage cut): when every word that is not a reserved name is
frequent enough, and there is room for these words. -/
theorem C80_word_iff (A : Acc) {data : List Str} {toks : List (List Str)} (ht : List.Forall₂ Tokens data toks) (vs mf : Int) :
    ∃ vocab s, learnRaw A .word data vs mf none = .ok vocab ∧ Scheme.make .word vocab = .ok s ∧
      (List.Forall₂ (fun line ws => ∃ ids, s.encode line = .ok ids ∧ s.decode ids = .ok (List.intercalate [32] ws)) data toks ↔
        (∀ w ∈ toks.flatten, w ∉ special → mf ≤ toks.flatten.count w) ∧ Room vs (toks.flatten.dedup.filter fun w => decide (w ∉ special)).length) := by
  obtain ⟨vocab, s, h1, h2, _⟩ := C19_learned_accepted A .word (by decide) data vs mf none (by simp)
  exact ⟨vocab, s, h1, h2, (forall₂_iff_flatten ht fun hl => C01_word_iff h2 hl).trans (word_known_iff A ht h1)⟩

/-- C80 for characters: exactly when a char model restores all lines of the text it was learned from (no coverage cut). -/
theorem C80_char_iff (A : Acc) {data : List Str} {toks : List (List Str)} (ht : List.Forall₂ Tokens data toks) (vs mf : Int) :
    ∃ vocab s, learnRaw A .char data vs mf none = .ok vocab ∧ Scheme.make .char vocab = .ok s ∧
      (List.Forall₂ (fun line ws => ∃ ids, s.encode line = .ok ids ∧ s.decode ids = .ok (List.intercalate [32] ws)) data toks ↔
        SP ∉ toks.flatten.flatten ∧ (∀ c ∈ toks.flatten.flatten, mf ≤ toks.flatten.flatten.count c) ∧ Room vs toks.flatten.flatten.dedup.length) := by
  obtain ⟨vocab, s, h1, h2, _⟩ := C19_learned_accepted A .char (by decide) data vs mf none (by simp)
  refine ⟨vocab, s, h1, h2, (forall₂_iff_flatten ht fun hl => C02_char_iff h2 hl).trans (Iff.trans ?_ (char_known_iff A ht h1))⟩
  constructor
  · intro h c hc
    obtain ⟨w, hw, hc⟩ := List.mem_flatten.1 hc
    exact h w hw c hc
  · intro h w hw c hc
    exact h c (List.mem_flatten.2 ⟨w, hw, hc⟩)

/-- the learned words "a" and "b" come back, "c" is too rare -/
example : (∀ w ∈ ([[lit "a", lit "b"], [lit "a", lit "b", lit "c"]] : List (List Str)).flatten, w ∉ special →
      (1 : Int) ≤ ([[lit "a", lit "b"], [lit "a", lit "b", lit "c"]] : List (List Str)).flatten.count w) ∧
    ¬ (∀ w ∈ ([[lit "a", lit "b"], [lit "a", lit "b", lit "c"]] : List (List Str)).flatten, w ∉ special →
      (2 : Int) ≤ ([[lit "a", lit "b"], [lit "a", lit "b", lit "c"]] : List (List Str)).flatten.count w) ∧
    Room 9 (([[lit "a", lit "b"], [lit "a", lit "b", lit "c"]] : List (List Str)).flatten.dedup.filter fun w => decide (w ∉ special)).length ∧
    ¬ Room 8 (([[lit "a", lit "b"], [lit "a", lit "b", lit "c"]] : List (List Str)).flatten.dedup.filter fun w => decide (w ∉ special)).length := by
  have e : (([[lit "a", lit "b"], [lit "a", lit "b", lit "c"]] : List (List Str)).flatten.dedup.filter fun w => decide (w ∉ special)).length = 3 := by
    decide +kernel
  rw [e]
  refine ⟨by decide +kernel, by decide +kernel, Or.inr (Or.inl (by decide)), ?_⟩
  rintro (h | h | h) <;> omega

/-! ## C88: the three commands -/

theorem split_spaced : ∀ {wss : List (List Str)}, (∀ ws ∈ wss, ∀ w ∈ ws, IsToken w) →
    split (wss.flatMap fun ws => List.intercalate [32] ws ++ [10]) = wss.flatten
  | [], _ => rfl
  | ws :: wss, h => by
    rw [List.flatMap_cons, List.append_assoc, List.singleton_append, split_append_white _ (by decide), ← join_eq_intercalate,
      split_join_space (h ws (by simp)), split_spaced fun ws hws => h ws (by simp [hws]), List.flatten_cons]

theorem lines_tokens {ls : List Str} {wss : List (List Str)} (hw : List.Forall₂ Tokens ls wss) : ∀ ws ∈ wss, ∀ w ∈ ws, IsToken w := by
  induction hw with
  | nil => simp
  | cons h _ ih =>
    intro ws hws
    rcases List.mem_cons.1 hws with rfl | hws
    · exact fun w hww => split_isToken (by rw [split_of_tokens h]; exact hww)
    · exact ih ws hws

theorem tokens_cover {l : Str} {ws : List Str} (h : Tokens l ws) : ∀ c ∈ l, isWhite c = false → ∃ w ∈ ws, c ∈ w := by
  induction h with
  | blank hg => intro c hc hn; rw [hg c hc] at hn; cases hn
  | @last g w h hg _ hh =>
    intro c hc hn
    rcases List.mem_append.1 hc with hc | hc
    · rcases List.mem_append.1 hc with hc | hc
      · rw [hg c hc] at hn; cases hn
      · exact ⟨w, by simp, hc⟩
    · rw [hh c hc] at hn; cases hn
  | @cons g w r d ws hg _ hd _ _ ih =>
    intro c hc hn
    rcases List.mem_append.1 hc with hc | hc
    · rcases List.mem_append.1 hc with hc | hc
      · rw [hg c hc] at hn; cases hn
      · exact ⟨w, by simp, hc⟩
    · rcases List.mem_cons.1 hc with rfl | hc
      · rw [hd] at hn; cases hn
      · obtain ⟨v, hv, hcv⟩ := ih c hc hn
        exact ⟨v, by simp [hv], hcv⟩

theorem lines_cover {text : Str} {ls : List Str} (h : Lines text ls) : ∀ c ∈ text, c ≠ 10 → c ≠ 13 → ∃ l ∈ ls, c ∈ l := by
  induction h with
  | nil => simp
  | last => intro c hc _ _; exact ⟨_, by simp, hc⟩
  | lf _ _ ih | crlf _ _ ih | cr _ _ _ ih =>
    intro c hc h1 h2
    simp only [List.mem_append, List.mem_cons, h1, h2, false_or] at hc
    rcases hc with hc | hc
    · exact ⟨_, by simp, hc⟩
    · obtain ⟨l, hl, hcl⟩ := ih c hc h1 h2
      exact ⟨l, by simp [hl], hcl⟩

theorem words_cover {text : Str} {ls : List Str} {wss : List (List Str)} (hl : Lines text ls) (hw : List.Forall₂ Tokens ls wss) {c : Nat} (hc : c ∈ text)
    (hn : isWhite c = false) : ∃ ws ∈ wss, ∃ w ∈ ws, c ∈ w := by
  obtain ⟨l, hm, hcl⟩ := lines_cover hl c hc (by rintro rfl; revert hn; decide) (by rintro rfl; revert hn; decide)
  clear hl
  induction hw with
  | nil => simp at hm
  | @cons l' ws ls wss h _ ih =>
    rcases List.mem_cons.1 hm with rfl | hm
    · obtain ⟨w, hw, hcw⟩ := tokens_cover h c hcl hn
      exact ⟨ws, by simp, w, hw, hcw⟩
    · obtain ⟨ws', h1, h2⟩ := ih hm
      exact ⟨ws', by simp [h1], h2⟩

section
variable {J : Json} (hJ : JsonLaws J) {ord : Nat → List Nat → List Nat} {text : Str} (hs : ∀ c ∈ text, ¬ (0xD800 ≤ c ∧ c ≤ 0xDFFF)) {ls : List Str}
  (hl : Lines text ls) {wss : List (List Str)} (hw : List.Forall₂ Tokens ls wss)

include hJ hs hl hw

/-- C88 for words: exactly when `nlcodec learn -l word` gives a model with which `encode` and `decode` restore the text, with `-idx` and without: when every word that
is not a reserved name occurs `-mf` times, and there is room for these words. -/
theorem C88_word_iff (A : Acc) {args : MainArgs A.F} (ht : args.task = .learn) (hlev : args.level = some .word) (hraw : args.termFreqs = false)
    (model : Option Str) :
    (∃ m, mainTask J ord A args model text = (some m, [], none) ∧ Restores J ord A m text (spaced wss)) ↔
      (∀ w ∈ wss.flatten, w ∉ special → max 1 (args.minFreq.getD 0) ≤ wss.flatten.count w) ∧
        Room args.vocabSize (wss.flatten.dedup.filter fun w => decide (w ∉ special)).length := by
  have hmf : effMinFreq .word (args.minFreq.getD 0) = max 1 (args.minFreq.getD 0) := by
    unfold effMinFreq
    split <;> simp <;> omega
  obtain ⟨v, s, m, h1, h2, h3, h4, h5⟩ := C77_learned hJ A (k := .word) (by tauto) (inp_decoded hl hs) args.vocabSize
    (effMinFreq .word (args.minFreq.getD 0)) none (by simp)
  have hrun : mainTask J ord A args model text = (some m, [], none) := by
    simp only [mainTask, ht, hlev, hraw, learnVocab, h1, LevelName.kind, saveModel_ok h2 h4, Bool.false_eq_true, if_false]
  have hk := word_known_iff A (inp_tokens hl hw) h1
  rw [hmf] at hk
  rw [← hk]
  have htok := lines_tokens hw
  constructor
  · rintro ⟨m', g1, g2⟩ w hwm
    rw [hrun] at g1
    cases g1
    obtain ⟨out, e1, e2⟩ := g2 { args with task := .encode, indices := true } { args with task := .decode, indices := true } rfl rfl rfl
    obtain ⟨out', c1, c2⟩ := C62_word h2 true hl hw
    simp only [mainTask, h5, c1, Prod.mk.injEq, true_and, and_true] at e1
    subst e1
    simp only [mainTask, h5, c2, Prod.mk.injEq, true_and, and_true, spaced_flatMap] at e2
    have e3 := congrArg split e2
    rw [split_spaced htok, show (wss.flatMap fun ws => List.intercalate [32] (ws.map fun w => if w ∉ names v then lit "<unk>" else w) ++ [10]) =
      ((wss.map fun ws => ws.map fun w => if w ∉ names v then lit "<unk>" else w).flatMap fun ws => List.intercalate [32] ws ++ [10]) by
        rw [List.flatMap_map], split_spaced (by
      intro ws' hws' w' hw'
      obtain ⟨ws, hws, rfl⟩ := List.mem_map.1 hws'
      obtain ⟨w, hw, rfl⟩ := List.mem_map.1 hw'
      split
      · exact unk_token
      · exact htok ws hws w hw), ← List.map_flatten] at e3
    have hid : wss.flatten.map (fun w => if w ∉ names v then lit "<unk>" else w) = wss.flatten.map id := by rw [e3, List.map_id]
    have := List.map_inj_left.1 hid w hwm
    by_contra hn
    simp only [if_pos hn, id] at this
    apply hn
    obtain ⟨t, ht, hn'⟩ := validateReserved_ok (make_word_ok h2).2.2.2.2 1 (by omega)
    rw [← this]
    exact List.mem_map.2 ⟨t, List.mem_of_getElem? ht, by rw [hn']; rfl⟩
  · intro hall
    refine ⟨m, hrun, restores_of h5 fun b => ?_⟩
    obtain ⟨out, c1, c2⟩ := C62_word h2 b hl hw
    refine ⟨out, c1, ?_⟩
    rw [c2, spaced_flatMap]
    congr 1
    refine List.flatMap_congr fun ws hws => ?_
    congr 2
    refine (List.map_congr_left fun w hw => ?_).trans (List.map_id _)
    rw [if_neg fun h => h.2 (hall w (List.mem_flatten.2 ⟨ws, hws, hw⟩))]
    rfl

/-- C88 for characters without coverage cut: exactly when the text is restored, with `-idx` and without: when U+2581 does not occur, every character occurs `-mf`
times (20 if not given or below 1), and there is room for them. -/
theorem C88_char_iff (A : Acc) {args : MainArgs A.F} (ht : args.task = .learn) (hlev : args.level = some .char) (hraw : args.termFreqs = false)
    (hcov : args.cov = none) (model : Option Str) :
    (∃ m, mainTask J ord A args model text = (some m, [], none) ∧ Restores J ord A m text (spaced wss)) ↔
      SP ∉ wss.flatten.flatten ∧ (∀ c ∈ wss.flatten.flatten,
        (if args.minFreq.getD 0 < 1 then 20 else args.minFreq.getD 0) ≤ wss.flatten.flatten.count c) ∧
        Room args.vocabSize wss.flatten.flatten.dedup.length := by
  have hmf : effMinFreq .char (args.minFreq.getD 0) = if args.minFreq.getD 0 < 1 then 20 else args.minFreq.getD 0 := rfl
  obtain ⟨v, s, m, h1, h2, h3, h4, h5⟩ := C77_learned hJ A (k := .char) (by tauto) (inp_decoded hl hs) args.vocabSize
    (effMinFreq .char (args.minFreq.getD 0)) none (by simp)
  have hrun : mainTask J ord A args model text = (some m, [], none) := by
    simp only [mainTask, ht, hlev, hraw, hcov, learnVocab, h1, LevelName.kind, saveModel_ok h2 h4, Bool.false_eq_true, if_false]
  have hk := char_known_iff A (inp_tokens hl hw) h1
  rw [hmf] at hk
  rw [← hk]
  constructor
  · rintro ⟨m', g1, g2⟩ c hcm
    rw [hrun] at g1
    cases g1
    obtain ⟨out, e1, e2⟩ := g2 { args with task := .encode, indices := true } { args with task := .decode, indices := true } rfl rfl rfl
    obtain ⟨out', c1, c2⟩ := C62_char h2 true hl hw
    simp only [mainTask, h5, c1, Prod.mk.injEq, true_and, and_true] at e1
    subst e1
    simp only [mainTask, h5, c2, Prod.mk.injEq, true_and, and_true, spaced_flatMap] at e2
    obtain ⟨w, hw', hcw⟩ := List.mem_flatten.1 hcm
    obtain ⟨ws, hws, hwm⟩ := List.mem_flatten.1 hw'
    have hsp : c ≠ SP := by
      rintro rfl
      have hin : SP ∈ wss.flatMap fun ws => List.intercalate [32] ws ++ [10] :=
        List.mem_flatMap.2 ⟨ws, hws, List.mem_append_left _ (mem_intercalate_of_mem hwm hcw _)⟩
      rw [← e2] at hin
      obtain ⟨ws', _, hd⟩ := List.mem_flatMap.1 hin
      rcases List.mem_append.1 hd with hd | hd
      · obtain ⟨d, _, hd⟩ := List.mem_flatMap.1 hd
        split at hd
        · revert hd; decide
        · rename_i hne
          split at hd
          · revert hd; decide
          · exact hne (List.mem_singleton.1 hd).symm
      · revert hd; decide
    refine ⟨?_, hsp⟩
    by_contra hn
    have hlen : ∀ y : Str, y.length ≤ (y.flatMap fun c => if c = SP then [32] else if [c] ∉ names v then lit "<unk>" else [c]).length := by
      intro y
      induction y with
      | nil => simp
      | cons a y ih =>
        rw [List.flatMap_cons, List.length_append, List.length_cons]
        have : 1 ≤ (if a = SP then [32] else if [a] ∉ names v then lit "<unk>" else [a]).length := by
          split <;> [skip; split] <;> simp [lit]
        omega
    have hstrict : (List.intercalate [SP] ws).length <
        ((List.intercalate [SP] ws).flatMap fun c => if c = SP then [32] else if [c] ∉ names v then lit "<unk>" else [c]).length := by
      rcases Nat.lt_or_ge (List.intercalate [SP] ws).length
        ((List.intercalate [SP] ws).flatMap fun c => if c = SP then [32] else if [c] ∉ names v then lit "<unk>" else [c]).length with h | h
      · exact h
      · have := flatMap_length_one (fun c _ => by split <;> [skip; split] <;> simp [lit]) (le_antisymm h (hlen _)) c (mem_intercalate_of_mem hwm hcw _)
        rw [if_neg hsp, if_pos hn] at this
        exact absurd this (by decide)
    have htotal := congrArg List.length e2
    clear e2 hk hcm hw'
    have hall : ∀ (l : List (List Str)), (l.flatMap fun ws => List.intercalate [32] ws ++ [10]).length ≤
        (l.flatMap fun ws => ((List.intercalate [SP] ws).flatMap fun c => if c = SP then [32] else if [c] ∉ names v then lit "<unk>" else [c]) ++ [10]).length ∧
        (ws ∈ l → (l.flatMap fun ws => List.intercalate [32] ws ++ [10]).length <
        (l.flatMap fun ws => ((List.intercalate [SP] ws).flatMap fun c => if c = SP then [32] else if [c] ∉ names v then lit "<unk>" else [c]) ++ [10]).length) := by
      intro l
      induction l with
      | nil => simp
      | cons a l ih =>
        have h3 := hlen (List.intercalate [SP] a)
        have h4 := intercalate_length_eq SP 32 a
        rw [List.flatMap_cons, List.flatMap_cons, List.length_append, List.length_append, List.length_append, List.length_append]
        refine ⟨by omega, fun hm => ?_⟩
        rcases List.mem_cons.1 hm with rfl | hm
        · omega
        · have := ih.2 hm
          omega
    have := (hall wss).2 hws
    omega
  · intro hall
    refine ⟨m, hrun, restores_of h5 fun b => ?_⟩
    obtain ⟨out, c1, c2⟩ := C62_char h2 b hl hw
    refine ⟨out, c1, ?_⟩
    rw [c2, spaced_flatMap]
    congr 1
    refine List.flatMap_congr fun ws hws => ?_
    congr 1
    have hws' : ∀ w ∈ ws, ∀ c ∈ w, [c] ∈ names v ∧ c ≠ SP := fun w hw c hc =>
      hall c (List.mem_flatten.2 ⟨w, List.mem_flatten.2 ⟨ws, hws, hw⟩, hc⟩)
    clear hall hws c2
    induction ws with
    | nil => rfl
    | cons w ws ih =>
      have hwid : w.flatMap (fun c => if c = SP then [32] else if b = true ∧ [c] ∉ names v then lit "<unk>" else [c]) = w := by
        have : ∀ c ∈ w, (if c = SP then [32] else if b = true ∧ [c] ∉ names v then lit "<unk>" else [c]) = [c] := by
          intro c hc
          have := hws' w (by simp) c hc
          rw [if_neg this.2, if_neg fun h => h.2 this.1]
        rw [List.flatMap_congr this]
        simp
      cases ws with
      | nil => simpa using hwid
      | cons u us =>
        rw [List.intercalate_cons_cons, List.intercalate_cons_cons, List.flatMap_append, List.flatMap_append, hwid,
          ih fun w hw => hws' w (List.mem_cons_of_mem _ hw)]
        rfl

/-- C88 for BPE without coverage cut: whenever `learn` ends without exception, its model restores the text exactly if U+2581 does not occur in it. -/
theorem C88_bpe_iff (hord : ∀ i l, (ord i l).Perm l) (A : Acc) {args : MainArgs A.F} (ht : args.task = .learn) (hlev : args.level = some .bpe)
    (hraw : args.termFreqs = false) (hcov : args.cov = none) {model model' : Option Str} {out : Str}
    (h : mainTask J ord A args model text = (model', out, none)) :
    ∃ m, model' = some m ∧ out = [] ∧ (Restores J ord A m text (spaced wss) ↔ SP ∉ text) := by
  have h0 := h
  simp only [mainTask, ht, hlev, hraw, learnVocab, Bool.false_eq_true, if_false, LevelName.kind] at h
  cases hb : bpeLearn ord A (inpLines text) args.vocabSize (effMinFreq .bpe (args.minFreq.getD 0)) args.cov args.minCoEv with
  | error e => rw [hb] at h; simp at h
  | ok vocab =>
    have hv : ∀ c, args.cov = some c → A.valid c = true := by simp [hcov]
    obtain ⟨s, m, h1, _, h3, h4⟩ := C77_learned_bpe hJ hord (inp_decoded hl hs) hv hb
    rw [hb] at h
    simp only [saveModel_ok h1 h3, Prod.mk.injEq] at h
    refine ⟨m, h.1.symm, h.2.1.symm, ?_, fun hsp => ?_⟩
    · intro hr hsp
      obtain ⟨ws, hws, w, hwm, hcw⟩ := words_cover hl hw hsp (by decide)
      obtain ⟨out1, e1, e2⟩ := hr { args with task := .encode } { args with task := .decode } rfl rfl rfl
      obtain ⟨out2, ds, c1, c2, c3⟩ := C62_bpe_api h1 (C22_text hord hv hb).1 args.indices hl
      simp only [mainTask, h4, c1, Prod.mk.injEq, true_and, and_true] at e1
      subst e1
      simp only [mainTask, h4, c2, Prod.mk.injEq, true_and, and_true, spaced_flatMap] at e2
      have hin : SP ∈ wss.flatMap fun ws => List.intercalate [32] ws ++ [10] :=
        List.mem_flatMap.2 ⟨ws, hws, List.mem_append_left _ (mem_intercalate_of_mem hwm hcw _)⟩
      rw [← e2] at hin
      obtain ⟨d, hd, hin⟩ := List.mem_flatMap.1 hin
      obtain ⟨l, _, ids, _, g2⟩ := forall₂_mem_right c3 _ hd
      rcases List.mem_append.1 hin with hin | hin
      · simp only [Scheme.decode, Scheme.decodeStr, (make_bpe_ok h1).2.1] at g2
        split at g2
        · cases g2
        · cases g2
          obtain ⟨c, _, hc⟩ := List.mem_map.1 (strip_sub hin)
          revert hc
          split
          · decide
          · rename_i hne
            exact fun e => hne e
      · revert hin; decide
    · obtain ⟨m', g1, _, g3⟩ := C88_bpe hJ hs hl hw hord A ht hlev hraw hcov hsp h0
      rw [← h.1] at g1
      cases g1
      exact g3

end

/-- the conditions of `C88_char_iff` for the text "aab ab" with `-mf 2` and sizes 8 and 7 -/
example : SP ∉ ([[lit "aab", lit "ab"]] : List (List Str)).flatten.flatten ∧ (∀ c ∈ ([[lit "aab", lit "ab"]] : List (List Str)).flatten.flatten,
      (2 : Int) ≤ ([[lit "aab", lit "ab"]] : List (List Str)).flatten.flatten.count c) ∧
    Room 8 ([[lit "aab", lit "ab"]] : List (List Str)).flatten.flatten.dedup.length ∧
    ¬ Room 7 ([[lit "aab", lit "ab"]] : List (List Str)).flatten.flatten.dedup.length := by
  have e : ([[lit "aab", lit "ab"]] : List (List Str)).flatten.flatten.dedup.length = 2 := by decide +kernel
  rw [e]
  refine ⟨by decide +kernel, by decide +kernel, Or.inr (Or.inl (by decide)), ?_⟩
  rintro (h | h | h) <;> omega

end Verif
