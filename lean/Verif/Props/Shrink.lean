import Verif.Lemmas.Shrink
import Verif.Lemmas.Json
import Verif.Props.Codec
import Verif.Props.File
import Mathlib.Tactic.IntervalCases
/-!
# Properties of shrink_vocab (C28 – C30)
-/

namespace Verif
open Spec

/-! ## C28 -/

theorem encode_lt {k : Kind} {tbl : List Ty} {s : Scheme} (hs : Scheme.make k tbl = .ok s) (hi : Indexed s.table) {line : Str}
    {ids : List Int} (he : s.encode line = .ok ids) : ∀ i ∈ ids, i < s.table.length := by
  cases k with
  | word =>
    obtain ⟨h1, _⟩ := make_word_ok hs
    obtain ⟨ids', a, b⟩ := C05_ids_in_range_word_char (.inl rfl) hs line
    rw [he] at a; cases a
    intro i hi; rw [h1]; exact (b i hi).2
  | char =>
    obtain ⟨h1, _⟩ := make_char_ok hs
    obtain ⟨ids', a, b⟩ := C05_ids_in_range_word_char (.inr rfl) hs line
    rw [he] at a; cases a
    intro i hi; rw [h1]; exact (b i hi).2
  | bpe =>
    obtain ⟨h1, _⟩ := make_bpe_ok hs
    obtain ⟨ids', a, b⟩ := C05_ids_in_range_bpe hs (by rw [← h1]; exact hi) line
    rw [he] at a; cases a
    intro i hi; rw [h1]; exact (b i hi).2
  | clasz =>
    obtain ⟨h1, _⟩ := mkInvertible_ok hs
    obtain ⟨i, a, b⟩ := C05_ids_class hs line
    rw [he] at a; cases a
    intro j hj
    simp at hj; subst hj
    rw [h1]; omega
  | byte => intro i hi; exact (C05_ids_in_range_byte hs line he i hi).2

theorem encodes_lt {k : Kind} {tbl : List Ty} {s : Scheme} (hs : Scheme.make k tbl = .ok s) (hi : Indexed s.table) {lines : List Str}
    {encs : List (List Int)} (he : List.Forall₂ (fun l ids => s.encode l = .ok ids) lines encs) :
    ∀ i ∈ encs.flatten, i < s.table.length := by
  intro i him
  obtain ⟨ids, h1, h2⟩ := List.mem_flatten.1 him
  obtain ⟨j, hj, e⟩ := List.getElem_of_mem h1
  rw [List.forall₂_iff_get] at he
  have := he.2 j (he.1 ▸ hj) hj
  exact encode_lt hs hi this i (by simp only [List.get_eq_getElem, e]; exact h2)

/-- C28: on text with at least one id, `shrink_vocab` returns the increasing list of exactly the needed indices, and the new
table is the old one restricted to them. -/
theorem C28_keeps_needed {k : Kind} {tbl : List Ty} {s : Scheme} (hs : Scheme.make k tbl = .ok s)
    (hi : Indexed s.table) (hk : KidsEarlier s.table) {lines : List Str} {encs : List (List Int)}
    (he : List.Forall₂ (fun l ids => s.encode l = .ok ids) lines encs) (hne : encs.flatten ≠ []) (minFreq : Int) :
    ∃ mapping new, shrinkVocab s lines minFreq = .ok (mapping, new) ∧ mapping.Pairwise (· < ·) ∧
      (∀ i, i ∈ mapping ↔ Needed s.table encs.flatten minFreq i) ∧ Shrunk s.table mapping new :=
  shrinkVocab_ok hi hk he hne (encodes_lt hs hi he) minFreq

/-- C28: the new table is well formed again. -/
theorem C28_wellformed {tbl new : List Ty} {mapping : List Nat} (h : Shrunk tbl mapping new) (hlt : ∀ i ∈ mapping, i < tbl.length) :
    Indexed new ∧ KidsEarlier new := ⟨h.indexed hlt, h.kidsEarlier hlt⟩

/-- C28: on text without any id nothing is returned: `max()` of nothing raises ValueError. -/
theorem C28_no_ids_raises {s : Scheme} {lines : List Str} (he : ∀ l ∈ lines, s.encode l = .ok []) (minFreq : Int) :
    shrinkVocab s lines minFreq = .error .value := by
  have h2 : List.Forall₂ (fun l ids => s.encode l = .ok ids) lines (lines.map fun _ => []) := by
    clear minFreq
    induction lines with
    | nil => exact .nil
    | cons l ls ih => exact .cons (he l (by simp)) (ih (fun m hm => he m (by simp [hm])))
  have h3 : (lines.map fun _ => ([] : List Int)).flatten = [] := by simp
  rw [shrinkVocab, shrinkFreqs_ok h2, h3]
  rfl

/-- a BPE vocabulary with two merges -/
def exShrinkTbl : List Ty :=
  let a : Ty := ⟨lit "a", 0, 6, 5, []⟩
  let b : Ty := ⟨lit "b", 0, 7, 4, []⟩
  let c : Ty := ⟨lit "c", 0, 8, 3, []⟩
  let ab : Ty := ⟨lit "ab", 1, 9, 3, [a, b]⟩
  let cb : Ty := ⟨lit "cb", 1, 10, 2, [c, b]⟩
  reservedTypes ++ [a, b, c, ab, cb]

example : Indexed exShrinkTbl ∧ KidsEarlier exShrinkTbl := by
  constructor
  · intro i t h
    have hi : i < 11 := (List.getElem?_eq_some_iff.1 h).1
    interval_cases i <;> (cases h; rfl)
  · intro i t h k hk
    have hi : i < 11 := (List.getElem?_eq_some_iff.1 h).1
    interval_cases i <;> cases h <;> simp at hk
    all_goals first | exact absurd hk id | (rcases hk with rfl | rfl)
    exacts [⟨6, by omega, rfl⟩, ⟨7, by omega, rfl⟩, ⟨8, by omega, rfl⟩, ⟨7, by omega, rfl⟩]

/-- "ab" keeps its kids "a" and "b" although neither occurs; "c" and "cb" go -/
example : (withScheme .bpe exShrinkTbl fun s => (shrinkVocab s [lit "ab ab"] 2).map (fun p => (p.1, p.2.map fun t => (t.name, t.kids.map (·.idx))))) =
    .ok ([0, 1, 2, 3, 4, 5, 6, 7, 9], [(lit "<pad>", []), (lit "<unk>", []), (lit "<s>", []), (lit "</s>", []), (lit "<cls>", []),
      ([SP], []), (lit "a", []), (lit "b", []), (lit "ab", [6, 7])]) := by decide +kernel

example : (withScheme .bpe exShrinkTbl fun s => s.encode (lit "ab ab")) = .ok [9, 5, 9, 5] := by decide +kernel

/-! ## C29 -/

theorem mem_mapping_of_id {tbl : List Ty} {ids : List Int} {mf : Int} (hmf : mf ≤ 1) {mapping : List Nat}
    (hm : ∀ i, i ∈ mapping ↔ Needed tbl ids mf i) {i : Nat} (hlt : i < tbl.length) (h : (i : Int) ∈ ids) : i ∈ mapping := by
  refine (hm i).2 (.own (List.getElem?_eq_getElem hlt) (.inr ?_))
  have := List.count_pos_iff.2 h
  omega

/-- the two ids of one piece -/
theorem idOf_translates {s s' : Scheme} {mapping : List Nat} (hkind : s'.kind = s.kind) (hs : Shrunk s.table mapping s'.table)
    (hlt : ∀ x ∈ mapping, x < s.table.length) (hp : mapping.Pairwise (· < ·)) (hunk : s.kind ≠ .clasz → s.kind ≠ .byte → mapping[1]? = some 1)
    {p : Str} (hb : s.kind = .byte → p ∈ s.idxToStr)
    (hkept : ∀ i : Nat, s.idOf p = i → s.idxToStr.idxOf? p = some i → i ∈ mapping) :
    Translates mapping (s'.idOf p) (s.idOf p) := by
  cases hx : s.idxToStr.idxOf? p with
  | some i =>
    have h1 : s.idOf p = i := by simp [Scheme.idOf, hx]
    obtain ⟨n, a, b⟩ := hs.idxOf_some hlt hp hx (hkept i h1 hx)
    have h2 : s'.idOf p = n := by
      have : s'.idxToStr.idxOf? p = some n := b
      simp [Scheme.idOf, this]
    exact .inr ⟨n, i, h2, h1, a⟩
  | none =>
    have h1 : s.idOf p = s.unk := by simp [Scheme.idOf, hx]
    have h2 : s'.idOf p = s'.unk := by
      have : s'.idxToStr.idxOf? p = none := hs.idxOf_none hlt hx
      simp [Scheme.idOf, this]
    have h3 : s'.unk = s.unk := by simp [Scheme.unk, hkind]
    rw [h1, h2, h3]
    by_cases hc : s.kind = .clasz
    · exact .inl (by simp [Scheme.unk, hc])
    · by_cases hbb : s.kind = .byte
      · exact absurd (hb hbb) (List.idxOf?_eq_none_iff.1 hx)
      · exact .inr ⟨1, 1, by simp [Scheme.unk, hc, UNK], by simp [Scheme.unk, hc, UNK], hunk hc hbb⟩

/-- the shrunk table is accepted by the same scheme -/
theorem make_shrunk {k : Kind} {tbl : List Ty} {s : Scheme} (hs : Scheme.make k tbl = .ok s) {mapping : List Nat} {new : List Ty}
    (hsh : Shrunk s.table mapping new) (hlt : ∀ x ∈ mapping, x < s.table.length) (hp : mapping.Pairwise (· < ·))
    (hres : k ≠ .clasz → k ≠ .byte → ∀ i < 6, i ∈ mapping) (hne : k = .byte → mapping ≠ []) :
    ∃ s', Scheme.make k new = .ok s' ∧ s'.table = new ∧ s'.kind = k ∧ DictOK s' := by
  have hval : k ≠ .clasz → k ≠ .byte → validateReserved s.table = .ok () → validateReserved new = .ok () := by
    intro h1 h2 hv
    refine validateReserved_of_get (fun i n hn => ?_)
    have hi6 : i < 6 := (List.getElem?_eq_some_iff.1 hn).1
    have hpre := mapping_prefix hp (hres h1 h2) i hi6
    rw [hsh.name_get hlt hpre]
    obtain ⟨t, ht, hname⟩ := validateReserved_ok hv i hi6
    have : reservedNames[i]? = some t.name := by rw [hname]; exact List.getElem?_eq_getElem _
    rw [this] at hn; cases hn
    simp [names, ht]
  cases k with
  | word =>
    obtain ⟨h1, h2, h3, h4, h5⟩ := make_word_ok hs
    rw [← h1] at h4 h5
    obtain ⟨s', hm⟩ := mkInvertible_of_nodup .word (hsh.nodup hlt hp h4)
    obtain ⟨a, b, c, d⟩ := mkInvertible_ok hm
    exact ⟨s', by simp [Scheme.make, hval (by decide) (by decide) h5, hm], a, b, c⟩
  | char =>
    obtain ⟨h1, h2, h3, h4, h5⟩ := make_char_ok hs
    rw [← h1] at h4 h5
    obtain ⟨s', hm⟩ := mkInvertible_of_nodup .char (hsh.nodup hlt hp h4)
    obtain ⟨a, b, c, d⟩ := mkInvertible_ok hm
    exact ⟨s', by simp [Scheme.make, hval (by decide) (by decide) h5, hm], a, b, c⟩
  | clasz =>
    obtain ⟨h1, h2, h3, h4⟩ := mkInvertible_ok hs
    rw [← h1] at h4
    obtain ⟨s', hm⟩ := mkInvertible_of_nodup .clasz (hsh.nodup hlt hp h4)
    obtain ⟨a, b, c, d⟩ := mkInvertible_ok hm
    exact ⟨s', hm, a, b, c⟩
  | byte =>
    obtain ⟨h1, h2, h3, h4⟩ := mkInvertible_ok hs
    rw [← h1] at h4
    obtain ⟨s', hm⟩ := mkInvertible_of_nodup .byte (hsh.nodup hlt hp h4)
    obtain ⟨a, b, c, d⟩ := mkInvertible_ok hm
    have hnn : new ≠ [] := by
      intro e
      have := hsh.1
      rw [e] at this
      exact hne rfl (List.length_eq_zero_iff.1 this.symm)
    exact ⟨s', by simp [Scheme.make, List.isEmpty_iff, hnn, hm], a, b, c⟩
  | bpe =>
    obtain ⟨h1, h2, h3, h4, h5, h6⟩ := make_bpe_ok hs
    rw [← h1] at h4 h6
    have hroot : (buildTrie new).data = none := by
      have e1 : ∀ t : Trie Ty, t.data = t.lookup [] := fun t => rfl
      rw [e1, lookup_buildTrie] at h6 ⊢
      have h7 := lastNamed_none h6
      cases hl : lastNamed new [] with
      | none => rfl
      | some t =>
        obtain ⟨a, b⟩ := lastNamed_some hl
        have : ([] : Str) ∈ names new := List.mem_map.2 ⟨t, a, b⟩
        obtain ⟨u, hu, hn⟩ := List.mem_map.1 (hsh.names_subset hlt this)
        exact absurd hn (h7 u hu)
    have hmk : Scheme.make .bpe new = .ok { kind := .bpe, table := new, s2i := strToIdxFirst (new.map (·.name)) 0 [], root := buildTrie new } := by
      simp [Scheme.make, hval (by decide) (by decide) h4, hroot]
    obtain ⟨a, b, c, _⟩ := make_bpe_ok hmk
    exact ⟨_, hmk, a, b, c⟩

/-- C29: with `min_freq ≤ 1`, the shrunk table is accepted by the same scheme class and encodes every line of the text to the
same ids up to renumbering, for all five schemes.  The reserved types are supposed to have their level −1, as all learners
provide. -/
theorem C29_same_encoding {k : Kind} {tbl : List Ty} {s : Scheme} (hs : Scheme.make k tbl = .ok s)
    (hi : Indexed s.table) (hk : KidsEarlier s.table)
    (hres : k ≠ .clasz → k ≠ .byte → ∀ (i : Nat) (t : Ty), i < 6 → s.table[i]? = some t → t.level = -1)
    {lines : List Str} {encs : List (List Int)}
    (he : List.Forall₂ (fun l ids => s.encode l = .ok ids) lines encs) (hne : encs.flatten ≠ []) {minFreq : Int} (hmf : minFreq ≤ 1) :
    ∃ mapping new s', shrinkVocab s lines minFreq = .ok (mapping, new) ∧ Scheme.make k new = .ok s' ∧ s'.table = new ∧
      ∀ l ∈ lines, ∀ ids, s.encode l = .ok ids → ∃ ids', s'.encode l = .ok ids' ∧ List.Forall₂ (Translates mapping) ids' ids := by
  obtain ⟨mapping, new, h1, hp, hmem, hsh⟩ := C28_keeps_needed hs hi hk he hne minFreq
  have hlt : ∀ x ∈ mapping, x < s.table.length := by
    intro x hx
    cases (hmem x).1 hx with
    | own a _ => exact (List.getElem?_eq_some_iff.1 a).1
    | kid _ a b => exact (List.getElem?_eq_some_iff.1 (KidsEarlier.idx_lt hi hk a b).2).1
  have hvlen : k ≠ .clasz → k ≠ .byte → validateReserved s.table = .ok () := by
    intro e1 e2
    cases k with
    | word => obtain ⟨a, _, _, _, b⟩ := make_word_ok hs; rw [a]; exact b
    | char => obtain ⟨a, _, _, _, b⟩ := make_char_ok hs; rw [a]; exact b
    | bpe => obtain ⟨a, _, _, b, _⟩ := make_bpe_ok hs; rw [a]; exact b
    | clasz => exact absurd rfl e1
    | byte => exact absurd rfl e2
  have hres' : k ≠ .clasz → k ≠ .byte → ∀ i < 6, i ∈ mapping := by
    intro e1 e2 i hi6
    obtain ⟨t, ht, _⟩ := validateReserved_ok (hvlen e1 e2) i hi6
    exact (hmem i).2 (.own ht (.inl (hres e1 e2 i t hi6 ht)))
  obtain ⟨x, hx⟩ := List.exists_mem_of_ne_nil _ hne
  have hrange := encodes_lt hs hi he
  have hkept : ∀ l ∈ lines, ∀ ids, s.encode l = .ok ids → ∀ i : Nat, (i : Int) ∈ ids → i ∈ mapping := by
    intro l hl ids hle i hin
    have hmemf : (i : Int) ∈ encs.flatten := by
      obtain ⟨j, hj, e⟩ := List.getElem_of_mem hl
      have he' := he
      rw [List.forall₂_iff_get] at he'
      have hj' : j < encs.length := he'.1 ▸ hj
      have h3 := he'.2 j hj hj'
      simp only [List.get_eq_getElem, e, hle, Except.ok.injEq] at h3
      exact List.mem_flatten.2 ⟨encs[j], List.getElem_mem _, by rw [← h3]; exact hin⟩
    exact mem_mapping_of_id hmf hmem (by have := hrange _ hmemf; omega) hmemf
  have hnb : k = .byte → mapping ≠ [] := by
    intro e
    subst e
    obtain ⟨ids, a, b⟩ := List.mem_flatten.1 hx
    obtain ⟨j, hj, ej⟩ := List.getElem_of_mem a
    have he' := he
    rw [List.forall₂_iff_get] at he'
    have hj' : j < lines.length := he'.1 ▸ hj
    have h3 := he'.2 j hj' hj
    simp only [List.get_eq_getElem, ej] at h3
    have h4 := C05_ids_in_range_byte hs _ h3 x b
    have h5 := hkept _ (List.getElem_mem hj') _ h3 x.toNat (by rw [Int.toNat_of_nonneg h4.1]; exact b)
    exact List.ne_nil_of_mem h5
  obtain ⟨s', hm, ht', hk', hd'⟩ := make_shrunk hs hsh hlt hp hres' hnb
  subst ht'
  refine ⟨mapping, s'.table, s', h1, hm, rfl, ?_⟩
  have hfin : ∀ (l : Str) (ps : List Str), l ∈ lines → s.encode l = .ok (ps.map s.idOf) → s.kind = k → (k = .byte → ∀ p ∈ ps, p ∈ s.idxToStr) →
      List.Forall₂ (Translates mapping) (ps.map s'.idOf) (ps.map s.idOf) := by
    intro l ps hl hle hkk hb
    rw [List.forall₂_map_left_iff, List.forall₂_map_right_iff, List.forall₂_same]
    intro p hpp
    refine idOf_translates (by rw [hk', hkk]) hsh hlt hp ?_ (fun e => hb (by rw [← hkk, e]) p hpp) ?_
    · intro e1 e2
      rw [hkk] at e1 e2
      exact mapping_prefix hp (hres' e1 e2) 1 (by omega)
    · intro i e1 _
      exact hkept l hl _ hle i (by rw [← e1]; exact List.mem_map.2 ⟨p, hpp, rfl⟩)
  intro l hl ids hle
  by_cases hbpe : k = .bpe
  · subst hbpe
    obtain ⟨a1, a2, a3, _⟩ := make_bpe_ok hs
    obtain ⟨out, hg, _, hen⟩ := bpe_encode_spec hs (by rw [← a1]; exact hi) l
    obtain ⟨out', hg', _, hen'⟩ := bpe_encode_spec hm (hsh.indexed hlt) l
    rw [hle] at hen
    cases hen
    have hsame : Greedy (s'.table.map (·.name)) (bpeText l) out := by
      refine greedy_restrict hg (fun w hw => ?_) (fun w hw => ?_)
      · have := hsh.names_subset hlt (p := w) hw
        rw [a1] at this; exact this
      · have hwt := greedy_mem hg w hw
        rw [← a1] at hwt
        cases hx2 : s.idxToStr.idxOf? w with
        | none => exact absurd hwt (List.idxOf?_eq_none_iff.1 hx2)
        | some i =>
          have hid : s.idOf w = i := by simp [Scheme.idOf, hx2]
          have hin : i ∈ mapping := hkept l hl _ hle i (by
            rw [← hid]
            exact List.mem_map.2 ⟨some w, hw, rfl⟩)
          obtain ⟨n, _, hn⟩ := hsh.idxOf_some hlt hp hx2 hin
          exact List.mem_of_getElem? (idxOf?_some_get hn)
    have := hg'.unique hsame
    subst this
    refine ⟨_, hen', ?_⟩
    have hmm : ∀ s : Scheme, (out'.map fun o => s.idOf (o.getD unkName)) = (out'.map fun o => o.getD unkName).map s.idOf := by
      intro s; rw [List.map_map]; rfl
    rw [hmm, hmm]
    rw [hmm] at hle
    exact hfin l _ hl hle a2 (by intro e; cases e)
  · have hkk : s.kind = k ∧ DictOK s := by
      cases k with
      | word => obtain ⟨_, b, c, _⟩ := make_word_ok hs; exact ⟨b, c⟩
      | char => obtain ⟨_, b, c, _⟩ := make_char_ok hs; exact ⟨b, c⟩
      | bpe => exact absurd rfl hbpe
      | clasz => obtain ⟨_, b, c, _⟩ := mkInvertible_ok hs; exact ⟨b, c⟩
      | byte => obtain ⟨_, b, c, _⟩ := mkInvertible_ok hs; exact ⟨b, c⟩
    obtain ⟨hkk, hd⟩ := hkk
    have hsame : s'.encodeStr l = s.encodeStr l := by
      simp only [Scheme.encodeStr, hk', hkk]
      cases k <;> simp at hbpe ⊢
    simp only [Scheme.encode] at hle ⊢
    rw [hsame]
    cases hp1 : s.encodeStr l with
    | error e => simp [hp1] at hle
    | ok ps =>
      simp only [hp1] at hle ⊢
      by_cases hb : k = .byte
      · subst hb
        obtain ⟨b1, b2⟩ := idsOf_byte_ok hkk hd hle
        subst b2
        have hle' : s.encode l = .ok (ps.map s.idOf) := by simp [Scheme.encode, hp1, hle]
        refine ⟨_, idsOf_byte hk' hd' ps ?_, hfin l ps hl hle' hkk (fun _ => b1)⟩
        intro p hpp
        cases hx2 : s.idxToStr.idxOf? p with
        | none => exact absurd (b1 p hpp) (List.idxOf?_eq_none_iff.1 hx2)
        | some i =>
          have hid : s.idOf p = i := by simp [Scheme.idOf, hx2]
          obtain ⟨n, _, hn⟩ := hsh.idxOf_some hlt hp hx2 (hkept l hl _ hle' i (by rw [← hid]; exact List.mem_map.2 ⟨p, hpp, rfl⟩))
          exact List.mem_of_getElem? (idxOf?_some_get hn)
      · have e1 := idsOf_eq (by rw [hkk]; exact hb) hd ps
        rw [e1] at hle
        cases hle
        have hle' : s.encode l = .ok (ps.map s.idOf) := by simp [Scheme.encode, hp1, e1]
        exact ⟨_, idsOf_eq (by rw [hk']; exact hb) hd' ps, hfin l ps hl hle' hkk (fun e => absurd e hb)⟩

/-- the bound on `min_freq` is needed: at 2 the single "cb" is split by the shrunk vocabulary, and "c" is lost -/
example : (withScheme .bpe exShrinkTbl fun s => match shrinkVocab s [lit "ab ab cb"] 2 with
    | .error e => .error e
    | .ok (m, new) => withScheme .bpe new fun s' => .ok (m, s.encode (lit "ab ab cb"), s'.encode (lit "ab ab cb"))) =
    .ok ([0, 1, 2, 3, 4, 5, 6, 7, 9], .ok [9, 5, 9, 5, 10, 5], .ok [8, 5, 8, 5, 1, 7, 5]) := by decide +kernel

example : (withScheme .bpe exShrinkTbl fun s => match shrinkVocab s [lit "ab cb"] 1 with
    | .error e => .error e
    | .ok (m, new) => withScheme .bpe new fun s' => .ok (m, s'.encode (lit "ab cb"))) =
    .ok ([0, 1, 2, 3, 4, 5, 6, 7, 8, 9, 10], .ok [9, 5, 10, 5]) := by decide +kernel

/-! ## C30 -/

/-- the level that `load_scheme` takes as the sign of each kind (none for class and byte) -/
def kindLevel : Kind → Option Int
  | .char => some 0
  | .bpe => some 1
  | .word => some 2
  | _ => none

theorem maxLevel_of {tbl : List Ty} {m : Int} (h1 : ∃ t ∈ tbl, t.level = m) (h2 : ∀ t ∈ tbl, t.level ≤ m) : maxLevel tbl = some m := by
  induction tbl with
  | nil => obtain ⟨t, ht, _⟩ := h1; simp at ht
  | cons t ts ih =>
    simp only [maxLevel]
    by_cases hts : ∃ u ∈ ts, u.level = m
    · rw [ih hts (fun u hu => h2 u (by simp [hu]))]
      have := h2 t (by simp)
      simp [this]
    · obtain ⟨u, hu, e⟩ := h1
      rcases List.mem_cons.1 hu with rfl | hu
      · cases hm : maxLevel ts with
        | none => simp [e]
        | some x =>
          -- the maximum of the rest is the level of an entry
          have hx : ∀ (l : List Ty) (x : Int), maxLevel l = some x → ∃ v ∈ l, v.level = x := by
            intro l
            induction l with
            | nil => intro x h; simp [maxLevel] at h
            | cons v l ihl =>
              intro x h
              simp only [maxLevel] at h
              cases hv : maxLevel l with
              | none => simp [hv] at h; exact ⟨v, by simp, h⟩
              | some y =>
                simp only [hv, Option.some.injEq] at h
                obtain ⟨w, hw, ew⟩ := ihl y hv
                rcases max_choice v.level y with e2 | e2
                · exact ⟨v, by simp, by omega⟩
                · exact ⟨w, by simp [hw], by omega⟩
          obtain ⟨v, hv, ev⟩ := hx ts x hm
          have := h2 v (by simp [hv])
          simp [e]; omega
      · exact absurd ⟨u, hu, e⟩ hts

theorem scheme_kind {k : Kind} {v : List Ty} {s : Scheme} (h : Scheme.make k v = .ok s) : s.kind = k := by
  cases k with
  | bpe => exact (make_bpe_ok h).2.1
  | clasz => exact (mkInvertible_ok (k := .clasz) h).2.1
  | byte => exact (mkInvertible_ok (k := .byte) h).2.1
  | char => exact (make_char_ok h).2.1
  | word => exact (make_word_ok h).2.1

/-- the kind that `load_scheme` takes for a file without the name of a scheme, by the highest level: negative levels count from the end -/
def levelKind (m : Int) : Option Kind :=
  if m = 0 ∨ m = -4 then some .char else if m = 1 ∨ m = -3 then some .bpe else if m = 2 ∨ m = -2 then some .word
  else if m = 3 ∨ m = -1 then some .clasz else none

/-- C30, what the saved file loads as, for every kind of scheme: the kind is decided by the highest level left in the shrunk table alone. -/
theorem C30_loads {J : Json} (hJ : JsonLaws J) {k : Kind} {tbl : List Ty} {s : Scheme} (hs : Scheme.make k tbl = .ok s)
    (hi : Indexed s.table) (hk : KidsEarlier s.table)
    (hn : ∀ t ∈ s.table, ∀ c ∈ t.name, c ≠ 9 ∧ c ≠ 10 ∧ c ≠ 13 ∧ ¬ (0xD800 ≤ c ∧ c ≤ 0xDFFF))
    {lines : List Str} {minFreq : Int} {mapping : List Nat} {new : List Ty} (hrun : shrinkVocab s lines minFreq = .ok (mapping, new))
    {encs : List (List Int)} (he : List.Forall₂ (fun l ids => s.encode l = .ok ids) lines encs) {m : Int}
    (h1 : ∃ t ∈ new, t.level = m) (h2 : ∀ t ∈ new, t.level ≤ m) :
    ∃ text, shrinkSave J s lines minFreq = .ok text ∧
      (∀ k', levelKind m = some k' → loadScheme J text = Scheme.make k' new) ∧
      (levelKind m = none → ∃ e, loadScheme J text = .error e) := by
  have hne : encs.flatten ≠ [] := by
    intro e
    have : ∀ l ∈ lines, s.encode l = .ok [] := by
      intro l hl
      obtain ⟨j, hj, ej⟩ := List.getElem_of_mem hl
      have he' := he
      rw [List.forall₂_iff_get] at he'
      have h3 := he'.2 j hj (he'.1 ▸ hj)
      simp only [List.get_eq_getElem, ej] at h3
      rw [h3]
      exact congrArg _ (List.flatten_eq_nil_iff.1 e _ (List.getElem_mem _))
    rw [C28_no_ids_raises this] at hrun
    cases hrun
  obtain ⟨mapping', new', e1, hp, hmem, hsh⟩ := C28_keeps_needed hs hi hk he hne minFreq
  rw [hrun] at e1
  cases e1
  have hlt : ∀ x ∈ mapping, x < s.table.length := by
    intro x hx
    cases (hmem x).1 hx with
    | own a _ => exact (List.getElem?_eq_some_iff.1 a).1
    | kid _ a b => exact (List.getElem?_eq_some_iff.1 (KidsEarlier.idx_lt hi hk a b).2).1
  have hnn : new ≠ [] := by rintro rfl; obtain ⟨t, ht, _⟩ := h1; simp at ht
  have hname : ∀ t ∈ new, NameOK t.name := by
    intro t ht c hc
    obtain ⟨u, hu, e⟩ := List.mem_map.1 (hsh.names_subset hlt (List.mem_map.2 ⟨t, ht, rfl⟩))
    obtain ⟨a, b, c', d⟩ := hn u hu c (by rw [e]; exact hc)
    exact ⟨a, b, c', by simpa [isSurrogate] using d⟩
  obtain ⟨h, hpl, hsch, hlev, hw⟩ := writeOut_text (sch := none) (hsh.indexed hlt) hnn hname hJ (by simp)
  refine ⟨_, by simp only [shrinkSave, hrun]; exact hw, ?_⟩
  have hr := readVocab_written hJ hpl (hsh.indexed hlt) (hsh.kidsEarlier hlt) hname
  rw [maxLevel_of h1 h2] at hlev
  have ha := hpl.1
  have hkind : headerKind (some h) = if m < 4 then pyIndex [Kind.char, Kind.bpe, Kind.word, Kind.clasz] m else .error .assertion := by
    simp only [headerKind, ha, if_true, hsch, hlev]
  simp only [loadScheme, hr, hkind]
  by_cases hb : m < -4 ∨ 4 ≤ m
  · have hnone : levelKind m = none := by
      unfold levelKind
      rw [if_neg (by omega), if_neg (by omega), if_neg (by omega), if_neg (by omega)]
    refine ⟨fun k' h => (by rw [hnone] at h; cases h), fun _ => ?_⟩
    rcases hb with hb | hb
    · have : pyIndex [Kind.char, Kind.bpe, Kind.word, Kind.clasz] m = .error .index := by
        have hl : m + (([Kind.char, Kind.bpe, Kind.word, Kind.clasz].length : Nat) : Int) < 0 := by
          simp only [List.length_cons, List.length_nil]; omega
        simp only [pyIndex]
        rw [if_pos (by omega : m < 0), if_pos hl]
      rw [if_pos (by omega), this]
      exact ⟨_, rfl⟩
    · rw [if_neg (by omega)]
      exact ⟨_, rfl⟩
  · have : m = -4 ∨ m = -3 ∨ m = -2 ∨ m = -1 ∨ m = 0 ∨ m = 1 ∨ m = 2 ∨ m = 3 := by omega
    rcases this with rfl | rfl | rfl | rfl | rfl | rfl | rfl | rfl <;>
      exact ⟨fun k' h => by cases h; rfl, fun h => by cases h⟩

/-- C30 as far as it holds: when the highest level left in the shrunk table is the one that stands for the kind of the scheme
(char 0, bpe 1, word 2), the saved file loads as exactly the scheme made from the shrunk table.  Missing: class and byte
schemes, and word, char and bpe schemes of which no type of the highest level is left. -/
theorem C30_same_kind_partial {J : Json} (hJ : JsonLaws J) {k : Kind} {tbl : List Ty} {s : Scheme} (hs : Scheme.make k tbl = .ok s)
    (hi : Indexed s.table) (hk : KidsEarlier s.table)
    (hn : ∀ t ∈ s.table, ∀ c ∈ t.name, c ≠ 9 ∧ c ≠ 10 ∧ c ≠ 13 ∧ ¬ (0xD800 ≤ c ∧ c ≤ 0xDFFF))
    {lines : List Str} {minFreq : Int} {mapping : List Nat} {new : List Ty} (hrun : shrinkVocab s lines minFreq = .ok (mapping, new))
    {encs : List (List Int)} (he : List.Forall₂ (fun l ids => s.encode l = .ok ids) lines encs) {m : Int} (hm : kindLevel k = some m)
    (h1 : ∃ t ∈ new, t.level = m) (h2 : ∀ t ∈ new, t.level ≤ m) :
    ∃ text, shrinkSave J s lines minFreq = .ok text ∧ loadScheme J text = Scheme.make k new := by
  obtain ⟨text, g1, g2, _⟩ := C30_loads hJ hs hi hk hn hrun he h1 h2
  refine ⟨text, g1, g2 k ?_⟩
  cases k <;> simp [kindLevel] at hm <;> subst hm <;> rfl

/-- C30, exactly when it holds: the saved file loads as a scheme of the same kind if and only if the highest level left is the one that stands
for the kind, counted from the end if negative, and the constructor of the kind accepts the shrunk table. -/
theorem C30_iff {J : Json} (hJ : JsonLaws J) {k : Kind} {tbl : List Ty} {s : Scheme} (hs : Scheme.make k tbl = .ok s)
    (hi : Indexed s.table) (hk : KidsEarlier s.table)
    (hn : ∀ t ∈ s.table, ∀ c ∈ t.name, c ≠ 9 ∧ c ≠ 10 ∧ c ≠ 13 ∧ ¬ (0xD800 ≤ c ∧ c ≤ 0xDFFF))
    {lines : List Str} {minFreq : Int} {mapping : List Nat} {new : List Ty} (hrun : shrinkVocab s lines minFreq = .ok (mapping, new))
    {encs : List (List Int)} (he : List.Forall₂ (fun l ids => s.encode l = .ok ids) lines encs) {m : Int}
    (h1 : ∃ t ∈ new, t.level = m) (h2 : ∀ t ∈ new, t.level ≤ m) :
    ∃ text, shrinkSave J s lines minFreq = .ok text ∧
      ((∃ s', loadScheme J text = .ok s' ∧ s'.kind = k) ↔ levelKind m = some k ∧ ∃ s', Scheme.make k new = .ok s') := by
  obtain ⟨text, g1, g2, g3⟩ := C30_loads hJ hs hi hk hn hrun he h1 h2
  refine ⟨text, g1, fun ⟨s', a, b⟩ => ?_, fun ⟨a, s', b⟩ => ⟨s', by rw [g2 k a, b], scheme_kind b⟩⟩
  cases hl : levelKind m with
  | none =>
    obtain ⟨e, h⟩ := g3 hl
    rw [a] at h
    cases h
  | some k' =>
    rw [g2 k' hl] at a
    have : k' = k := (scheme_kind a).symm.trans b
    subst this
    exact ⟨rfl, s', a⟩

/-- a char table shrunk to text that uses "b": level 0 is left -/
example : (withScheme .char (exTable 0 ["a", "b"]) fun s => match shrinkVocab s [lit "b"] 1 with
    | .error e => .error e
    | .ok (_, new) => .ok (new.map (·.level), levelKind 0)) = .ok ([-1, -1, -1, -1, -1, -1, 0], some .char) := by decide +kernel

/-- C30 fails for char (and word and bpe) when only reserved types are frequent enough: their level −1 is taken for the last kind of the list, so
that the file loads as a class scheme, which encodes "ab" as −1. -/
theorem C30_reserved_refuted : ∃ (s s' : Scheme) (text : Str),
    Scheme.make .char (exTable 0 ["a", "b"]) = .ok s ∧ shrinkSave pyJson s [lit "ab"] 5 = .ok text ∧ loadScheme pyJson text = .ok s' ∧
      s'.kind = .clasz ∧ s.encode (lit "ab") = .ok [6, 7] ∧ s'.encode (lit "ab") = .ok [-1] := by
  have h : (withScheme .char (exTable 0 ["a", "b"]) fun s => match shrinkSave pyJson s [lit "ab"] 5 with
      | .error e => .error e
      | .ok text => match loadScheme pyJson text with
        | .error e => .error e
        | .ok s' => .ok (s'.kind, s.encode (lit "ab"), s'.encode (lit "ab"))) =
      .ok (.clasz, .ok [6, 7], .ok [-1]) := by decide +kernel
  simp only [withScheme] at h
  cases h1 : Scheme.make .char (exTable 0 ["a", "b"]) with
  | error e => simp [h1] at h
  | ok s =>
    simp only [h1] at h
    cases h2 : shrinkSave pyJson s [lit "ab"] 5 with
    | error e => simp [h2] at h
    | ok text =>
      simp only [h2] at h
      cases h3 : loadScheme pyJson text with
      | error e => simp [h3] at h
      | ok s' =>
        simp only [h3, Except.ok.injEq, Prod.mk.injEq] at h
        exact ⟨s, s', text, rfl, h2, h3, h.1, h.2.1, h.2.2⟩

/-- C30 fails for bpe: shrunk to text that uses no merged piece, the saved vocabulary loads as a char scheme, which encodes
differently ("ab" is one word for it but "▁" is not appended). -/
theorem C30_bpe_refuted : ∃ (s s' : Scheme) (text : Str),
    Scheme.make .bpe exShrinkTbl = .ok s ∧ shrinkSave pyJson s [lit "b a"] 1 = .ok text ∧ loadScheme pyJson text = .ok s' ∧ s'.kind = .char ∧
      s.encode (lit "b a") = .ok [7, 5, 6, 5] ∧ s'.encode (lit "b a") = .ok [7, 5, 6] := by
  have h : (withScheme .bpe exShrinkTbl fun s => match shrinkSave pyJson s [lit "b a"] 1 with
      | .error e => .error e
      | .ok text => match loadScheme pyJson text with
        | .error e => .error e
        | .ok s' => .ok (s'.kind, s.encode (lit "b a"), s'.encode (lit "b a"))) =
      .ok (.char, .ok [7, 5, 6, 5], .ok [7, 5, 6]) := by decide +kernel
  simp only [withScheme] at h
  cases h1 : Scheme.make .bpe exShrinkTbl with
  | error e => simp [h1] at h
  | ok s =>
    simp only [h1] at h
    cases h2 : shrinkSave pyJson s [lit "b a"] 1 with
    | error e => simp [h2] at h
    | ok text =>
      simp only [h2] at h
      cases h3 : loadScheme pyJson text with
      | error e => simp [h3] at h
      | ok s' =>
        simp only [h3, Except.ok.injEq, Prod.mk.injEq] at h
        exact ⟨s, s', text, rfl, h2, h3, h.1, h.2.1, h.2.2⟩

/-- C30 fails for every class scheme whose labels are all seen: the saved file is taken for a char vocabulary and refused. -/
theorem C30_class_refuted : ∃ (s : Scheme) (text : Str),
    Scheme.make .clasz [⟨lit "no", 0, 0, 1, []⟩, ⟨lit "yes", 0, 1, 1, []⟩] = .ok s ∧
      shrinkSave pyJson s [lit "no", lit "yes"] 1 = .ok text ∧ loadScheme pyJson text = .error .assertion := by
  have h : (withScheme .clasz [⟨lit "no", 0, 0, 1, []⟩, ⟨lit "yes", 0, 1, 1, []⟩] fun s => match shrinkSave pyJson s [lit "no", lit "yes"] 1 with
      | .error e => .error e
      | .ok text => .ok (match loadScheme pyJson text with | .error e => some e | .ok _ => none)) = .ok (some .assertion) := by decide +kernel
  simp only [withScheme] at h
  cases h1 : Scheme.make .clasz [⟨lit "no", 0, 0, 1, []⟩, ⟨lit "yes", 0, 1, 1, []⟩] with
  | error e => simp [h1] at h
  | ok s =>
    simp only [h1] at h
    cases h2 : shrinkSave pyJson s [lit "no", lit "yes"] 1 with
    | error e => simp [h2] at h
    | ok text =>
      simp only [h2] at h
      cases h3 : loadScheme pyJson text with
      | error e => simp only [h3, Except.ok.injEq, Option.some.injEq] at h; subst h; exact ⟨s, text, rfl, h2, h3⟩
      | ok s' => simp [h3] at h

/-- C30, byte: likewise, the saved byte vocabulary is not accepted. -/
theorem C30_byte_refuted : ∃ (s : Scheme) (text : Str),
    Scheme.make .byte [] = .ok s ∧ shrinkSave pyJson s [lit "abc"] 1 = .ok text ∧ loadScheme pyJson text = .error .assertion := by
  have h : (withScheme .byte [] fun s => match shrinkSave pyJson s [lit "abc"] 1 with
      | .error e => .error e
      | .ok text => .ok (match loadScheme pyJson text with | .error e => some e | .ok _ => none)) = .ok (some .assertion) := by decide +kernel
  simp only [withScheme] at h
  cases h1 : Scheme.make .byte [] with
  | error e => simp [h1] at h
  | ok s =>
    simp only [h1] at h
    cases h2 : shrinkSave pyJson s [lit "abc"] 1 with
    | error e => simp [h2] at h
    | ok text =>
      simp only [h2] at h
      cases h3 : loadScheme pyJson text with
      | error e => simp only [h3, Except.ok.injEq, Option.some.injEq] at h; subst h; exact ⟨s, text, rfl, h2, h3⟩
      | ok s' => simp [h3] at h

end Verif
