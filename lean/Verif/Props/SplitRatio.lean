import Verif.Model.SplitRatio
import Verif.Props.SplitText
import Mathlib.Algebra.Order.Field.Basic
import Mathlib.Tactic.Linarith
import Mathlib.Tactic.NormNum
/-!
# Property C130: what the split ratio does

BPEScheme.encode and BPEScheme.encode_str with a split ratio (nlcodec/codec.py).
-/

namespace Verif
open Spec

/-- C130: with a ratio of nan, zero or less nothing is split and no draw matters: the encoding is the plain one, for every table. -/
theorem C130_never (s : Scheme) {ratio : Option Rat} (h : ∀ r, ratio = some r → r ≤ 0) (draws : Nat → Fin (2 ^ 53)) (line : Str) :
    bpeEncodeStrRatio s ratio draws line = s.encodeStr line ∧ bpeEncodeRatio s ratio draws line = s.encode line := by
  have : bpeEncodeStrRatio s ratio draws line = s.encodeStr line := by
    cases ratio with
    | none => rfl
    | some r => simp only [bpeEncodeStrRatio, if_neg (not_lt.2 (h r rfl))]
  refine ⟨this, ?_⟩
  rw [bpeEncodeRatio, this, Scheme.encode]
  cases s.encodeStr line <;> rfl

theorem draw_lt_one (d : Fin (2 ^ 53)) : ((d.val : Int) : Rat) / 2 ^ 53 < 1 := by
  rw [div_lt_one (by norm_num)]
  exact_mod_cast d.isLt

/-- C130: with a ratio of 1 or more every type is split as far as possible, whatever is drawn: the pieces are names of types without kids. -/
theorem C130_always {tbl : List Ty} {s : Scheme} (h : Scheme.make .bpe tbl = .ok s) (hi : Indexed tbl) (hk : KidsEarlier tbl) (hb : ∀ t ∈ tbl, Binary t)
    {r : Rat} (hr : 1 ≤ r) (draws : Nat → Fin (2 ^ 53)) (line : Str) :
    ∃ ts us : List Ty, s.encodeStr line = .ok (ts.map (·.name)) ∧ SplitsTo ts us ∧ (∀ t ∈ us, t ∈ tbl ∧ t.kids = []) ∧
      bpeEncodeStrRatio s (some r) draws line = .ok (us.map (·.name)) := by
  have e : drawBelow r draws = fun _ => true := by
    funext i
    simpa [drawBelow] using lt_of_lt_of_le (draw_lt_one (draws i)) hr
  have h0 : (0 : Rat) < r := by linarith
  obtain ⟨h1, h2, _⟩ := make_bpe_ok h
  obtain ⟨_, ps, _, b, _⟩ := bpe_decode_encode h hi line
  subst h1
  have b' := b
  simp only [Scheme.encodeStr, h2] at b'
  cases hids : bpeIds s line with
  | error e => simp [hids] at b'
  | ok is =>
    simp only [hids] at b'
    obtain ⟨ts, t1, rfl, t3⟩ := types_of_names b'
    obtain ⟨us, u1, u2, u3, _⟩ := stochasticIds_always hb t1 0
    have hm := u2.mem_table hk t3
    refine ⟨ts, us, b, (splitsTo_iff_derivesL _ _).2 u2, fun t ht => ⟨hm t ht, u3 t ht⟩, ?_⟩
    simp only [bpeEncodeStrRatio, if_pos h0, e, bpeEncodeStrSplit, hids, u1, namesOf_types hi us hm]

/-- C130: with a ratio between 0 and 1, which as a binary64 number is at most 1 - 2^-53, every decomposition of the plain encoding may be drawn, and nothing else: the
ratio changes how likely the results are but not which are possible. -/
theorem C130_between {tbl : List Ty} {s : Scheme} (h : Scheme.make .bpe tbl = .ok s) (hi : Indexed tbl) (hk : KidsEarlier tbl) (hb : ∀ t ∈ tbl, Binary t)
    {r : Rat} (h0 : 0 < r) (h1 : r ≤ 1 - 1 / 2 ^ 53) (line : Str) :
    ∃ ts : List Ty, s.encodeStr line = .ok (ts.map (·.name)) ∧
      ∀ qs, (∃ draws, bpeEncodeStrRatio s (some r) draws line = .ok qs) ↔ ∃ us, SplitsTo ts us ∧ qs = us.map (·.name) := by
  obtain ⟨ts, _, t2, t3, _⟩ := C129_iff h hi hk hb line
  refine ⟨ts, t2, fun qs => ?_⟩
  rw [← t3 qs]
  constructor
  · rintro ⟨draws, hd⟩
    exact ⟨drawBelow r draws, by simpa only [bpeEncodeStrRatio, if_pos h0] using hd⟩
  · rintro ⟨rng, hd⟩
    refine ⟨fun i => if rng i = true then ⟨0, by norm_num⟩ else ⟨2 ^ 53 - 1, by norm_num⟩, ?_⟩
    have e : drawBelow r (fun i => if rng i = true then (⟨0, by norm_num⟩ : Fin (2 ^ 53)) else ⟨2 ^ 53 - 1, by norm_num⟩) = rng := by
      funext i
      cases hri : rng i with
      | true => simpa [drawBelow, hri] using h0
      | false =>
        have : ((((2 ^ 53 - 1 : Nat) : Int)) : Rat) / 2 ^ 53 = 1 - 1 / 2 ^ 53 := by norm_num
        simp only [drawBelow, hri, Bool.false_eq_true, if_false, decide_eq_false_iff_not, not_lt]
        rw [this]
        exact h1
    simp only [bpeEncodeStrRatio, if_pos h0, e, hd]

/-- C130: whatever the ratio and the draws, encoding succeeds, the ids are valid and decode to what the plain encoding decodes to. -/
theorem C130_text {tbl : List Ty} {s : Scheme} (h : Scheme.make .bpe tbl = .ok s) (hi : Indexed tbl) (hk : KidsEarlier tbl) (hs : ∀ t ∈ tbl, Spelled t)
    (ratio : Option Rat) (draws : Nat → Fin (2 ^ 53)) (line : Str) :
    ∃ ids ids', s.encode line = .ok ids ∧ bpeEncodeRatio s ratio draws line = .ok ids' ∧ (∀ i ∈ ids', 0 ≤ i ∧ i < tbl.length) ∧ s.decode ids' = s.decode ids := by
  by_cases hr : ∃ r, ratio = some r ∧ 0 < r
  · obtain ⟨r, rfl, h0⟩ := hr
    obtain ⟨_, ps', ids, ids', _, b, _, _, e, f, g, d⟩ := C06_split_preserves_text h hi hk hs (drawBelow r draws) line
    exact ⟨ids, ids', e, by simp only [bpeEncodeRatio, bpeEncodeStrRatio, if_pos h0, b, f], g, d⟩
  · obtain ⟨_, _, ids, ids', a, _, _, _, e, _⟩ := C06_split_preserves_text h hi hk hs (fun _ => false) line
    have := (C130_never s (fun r he => not_lt.1 fun h0 => hr ⟨r, he, h0⟩) draws line).2
    refine ⟨ids, ids, e, by rw [this, e], ?_, rfl⟩
    obtain ⟨_, h2, h3, h4, _⟩ := make_bpe_ok h
    simp only [Scheme.encode, a] at e
    rw [idsOf_eq (by rw [h2]; decide) h3] at e
    cases e
    intro i hm
    obtain ⟨p, _, rfl⟩ := List.mem_map.1 hm
    have := idOf_range (s := s) (by rw [h2]; decide) (by rw [(make_bpe_ok h).1]; exact h4) p
    rwa [(make_bpe_ok h).1] at this

/-- C130 for learned vocabularies: one can be used with any ratio, and decoding gives the same text as without splitting. -/
theorem C130_learned {ord : Nat → List Nat → List Nat} (hord : ∀ i l, (ord i l).Perm l) {A : Acc} {data : List Str} {vs mf minEv : Int} {cov : Option A.F}
    (hv : ∀ c, cov = some c → A.valid c = true) {vocab : List Ty} (h : bpeLearn ord A data vs mf cov minEv = .ok vocab) :
    ∃ s, Scheme.make .bpe vocab = .ok s ∧ ∀ ratio draws line, ∃ ids ids', s.encode line = .ok ids ∧ bpeEncodeRatio s ratio draws line = .ok ids' ∧
      s.decode ids' = s.decode ids := by
  obtain ⟨s, hs, _⟩ := C19_bpe_accepted hord hv h
  obtain ⟨hi, _, _, _, hk⟩ := C22_text hord hv h
  obtain ⟨k1, k2⟩ := learned_binary hk
  refine ⟨s, hs, fun ratio draws line => ?_⟩
  obtain ⟨ids, ids', a, b, _, d⟩ := C130_text hs hi k1 k2 ratio draws line
  exact ⟨ids, ids', a, b, d⟩

/-- half of the range as ratio; the first draw is below, the second not -/
example : (withScheme .bpe exSplit fun s => bpeEncodeStrRatio s (some (1/2)) (fun i => if i = 0 then ⟨5, by norm_num⟩ else ⟨2 ^ 52, by norm_num⟩) (lit "ab ab")) =
    .ok [lit "ab", [SP], lit "ab▁"] := by decide +kernel
example : (withScheme .bpe exSplit fun s => bpeEncodeStrRatio s (some 1) (fun _ => ⟨2 ^ 53 - 1, by norm_num⟩) (lit "ab ab")) =
    .ok [lit "a", lit "b", [SP], lit "a", lit "b", [SP]] := by decide +kernel
example : (withScheme .bpe exSplit fun s => bpeEncodeStrRatio s none (fun _ => ⟨0, by norm_num⟩) (lit "ab ab")) = .ok [lit "ab▁", lit "ab▁"] := by decide +kernel

end Verif
