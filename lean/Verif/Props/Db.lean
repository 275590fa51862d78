import Verif.Lemmas.DbRows
/-!
# Properties of the sequence database (C34 - C39)
-/

namespace Verif

variable {κ : Type} [DecidableEq κ]

/-- every integer of `[mn, mx]` is a `bits`-wide two's complement (signed) or binary (unsigned) number -/
def Spec.Fits (signed : Bool) (bits : Nat) (mn mx : Int) : Prop :=
  if signed then -2 ^ (bits - 1) ≤ mn ∧ mx < 2 ^ (bits - 1) else 0 ≤ mn ∧ mx < 2 ^ bits

open Spec

/-! ## C34 -/

theorem fits_iff {t : NpTy} (h : t ≠ .f64) (mn mx : Int) : Fits t.signed t.bits mn mx ↔ t.lo ≤ mn ∧ mx ≤ t.hi := by
  cases t <;> first | exact absurd rfl h | (simp [Fits, NpTy.signed, NpTy.bits, NpTy.lo, NpTy.hi]; try omega)

theorem find?_first {α : Type} [DecidableEq α] {p : α → Bool} {l : List α} {t u : α} (h : l.find? p = some t) (hu : u ∈ l) (hp : p u = true) :
    l.idxOf t ≤ l.idxOf u := by
  induction l with
  | nil => simp at hu
  | cons x l ih =>
    by_cases hx : p x = true
    · rw [List.find?_cons_of_pos hx] at h
      cases h
      simp
    · rw [List.find?_cons_of_neg hx] at h
      have hxu : x ≠ u := by rintro rfl; exact hx hp
      have hxt : x ≠ t := by rintro rfl; exact hx (List.find?_some h)
      rw [List.idxOf_cons_ne _ hxu, List.idxOf_cons_ne _ hxt]
      have := ih h ((List.mem_cons.1 hu).resolve_left (Ne.symm hxu))
      omega

/-- C34: the type found holds the whole range; no narrower type does; it is signed only if the unsigned type of the same width
does not do. -/
theorem C34_sound_minimal {mn mx : Int} {t : NpTy} (h : bestDtype mn mx = .ok t) : t ≠ .f64 ∧ Fits t.signed t.bits mn mx ∧
    ∀ u : NpTy, u ≠ .f64 → Fits u.signed u.bits mn mx → t.bits ≤ u.bits ∧ (t.signed = true → u.bits = t.bits → u.signed = true) := by
  obtain ⟨h1, h2⟩ := bestDtype_ok h
  refine ⟨h1, (fits_iff h1 _ _).2 h2, ?_⟩
  intro u hu hf
  rw [fits_iff hu] at hf
  simp only [bestDtype] at h
  cases hfd : dtypeOptions.find? fun t => decide (t.lo ≤ mn) && decide (mx ≤ t.hi) with
  | none => simp [hfd] at h
  | some t' =>
    simp only [hfd, Except.ok.injEq] at h
    subst h
    have hmem : u ∈ dtypeOptions := by cases u <;> first | decide | exact absurd rfl hu
    have := find?_first hfd hmem (by simpa using hf)
    revert this
    cases t' <;> cases u <;> first | exact absurd rfl hu | exact absurd rfl h1 | decide

/-- C34: it fails exactly if not even a 64-bit type holds the range. -/
theorem C34_fails_iff (mn mx : Int) : bestDtype mn mx = .error .assertion ↔ ¬ Fits false 64 mn mx ∧ ¬ Fits true 64 mn mx := by
  constructor
  · intro h
    simp only [bestDtype] at h
    cases hfd : dtypeOptions.find? fun t => decide (t.lo ≤ mn) && decide (mx ≤ t.hi) with
    | some t' => simp [hfd] at h
    | none =>
      rw [List.find?_eq_none] at hfd
      have h1 := hfd .u64 (by decide)
      have h2 := hfd .i64 (by decide)
      simp only [Bool.and_eq_true, decide_eq_true_eq] at h1 h2
      exact ⟨fun h => h1 ((fits_iff (t := .u64) (by decide) _ _).1 h), fun h => h2 ((fits_iff (t := .i64) (by decide) _ _).1 h)⟩
  · rintro ⟨h1, h2⟩
    cases hb : bestDtype mn mx with
    | ok t =>
      exfalso
      obtain ⟨g1, g2, _⟩ := C34_sound_minimal hb
      revert g2
      cases t <;> first | exact absurd rfl g1 | (simp [Fits, NpTy.signed, NpTy.bits] at h1 h2 ⊢; omega)
    | error e =>
      simp only [bestDtype] at hb
      split at hb
      · cases hb
      · exact hb ▸ rfl

example : bestDtype 0 255 = .ok .u8 ∧ bestDtype 0 256 = .ok .u16 ∧ bestDtype (-1) 127 = .ok .i8 ∧ bestDtype (-1) 128 = .ok .i16 ∧
    bestDtype 0 (2 ^ 32) = .ok .u64 ∧ bestDtype (-1) (2 ^ 63) = .error .assertion ∧ bestDtype 0 (2 ^ 64) = .error .assertion := by decide

/-! ## C35 -/

/-- C35, as far as it holds: whatever the other sequences and the flush points, a sequence is read back exactly if the data of the
field is stored in an integer type or the sequence has no value beyond 2^53 in magnitude.
Missing: larger values in a field promoted to `float64`, see `C35_refuted`. -/
theorem C35_exact_partial {bufSize : Nat} {name : Str} {recs : List (κ × List Int)} {f : SeqField κ}
    (h : SeqField.create bufSize name recs = .ok f) {id : κ} {arr : List Int} (hm : (id, arr) ∈ recs)
    (hx : f.ty ≠ .f64 ∨ ∀ v ∈ arr, v.natAbs ≤ 2 ^ 53) : f.get id = .ok arr := by
  obtain ⟨_, hf⟩ := create_inv h
  obtain ⟨i, hi⟩ := List.mem_iff_getElem?.1 hm
  obtain ⟨a, h1, h2⟩ := hf.get hi
  rw [exact_of_stored h2 hx] at h1
  exact h1

/-- C35, together with the fact that building succeeds: all values below 2^53 in magnitude, distinct ids. -/
theorem C35_roundtrip_partial (bufSize : Nat) (name : Str) {recs : List (κ × List Int)} (hne : recs ≠ []) (hn : (recs.map (·.1)).Nodup)
    (hv : ∀ r ∈ recs, ∀ v ∈ r.2, v.natAbs ≤ 2 ^ 53) (hlen : (recs.map fun r => r.2.length).sum < 2 ^ 64) :
    ∃ f, SeqField.create bufSize name recs = .ok f ∧ ∀ r ∈ recs, f.get r.1 = .ok r.2 := by
  have hv' : ∀ r ∈ recs, ∀ v ∈ r.2, -2 ^ 63 ≤ v ∧ v < 2 ^ 63 := by
    intro r hr v hvr
    have := hv r hr v hvr
    omega
  obtain ⟨b, hb⟩ := appendAll_succeeds (BInv.new (κ := κ)) (bufSize := bufSize) (recs := recs) (by simpa using hv')
  have hinv : BInv recs b := by simpa using BInv.appendAll BInv.new hb
  have hfl : (flat recs).length = (recs.map fun r => r.2.length).sum := by
    simp [flat, List.length_flatten, Function.comp_def]
  obtain ⟨f, hf⟩ := build_succeeds hinv name hv' hn hne (by omega)
  have hc : SeqField.create bufSize name recs = .ok f := by simp only [SeqField.create, hb, hf]
  exact ⟨f, hc, fun r hr => C35_exact_partial hc hr (Or.inr (hv r hr))⟩

theorem FInv.nearest {recs : List (κ × List Int)} {f : SeqField κ} (hf : FInv recs f) {id : κ} {arr : List Int} (hm : (id, arr) ∈ recs) :
    ∃ out, f.get id = .ok out ∧ List.Forall₂ (fun (x v : Int) => if f.ty = .f64 then Nearest64 (v : ℚ) (x : ℚ) else x = v) out arr := by
  obtain ⟨i, hi⟩ := List.mem_iff_getElem?.1 hm
  obtain ⟨a, h1, h2⟩ := hf.get hi
  refine ⟨a, h1, h2.imp ?_⟩
  intro x v hs
  split
  · rename_i ht
    rw [hs.2.2 ht, roundF64_eq]
    exact rnd64_nearest _
  · rename_i ht
    exact (hs.1 ht).1

theorem FInv.get_iff {recs : List (κ × List Int)} {f : SeqField κ} (hf : FInv recs f) {id : κ} {arr : List Int} (hm : (id, arr) ∈ recs) :
    f.get id = .ok arr ↔ f.ty ≠ .f64 ∨ ∀ v ∈ arr, F64 (v : ℚ) := by
  obtain ⟨out, h1, h2⟩ := hf.nearest hm
  rw [h1]
  by_cases ht : f.ty = .f64
  · simp only [ht, if_true, ne_eq, not_true_eq_false, false_or, Except.ok.injEq] at h2 ⊢
    constructor
    · rintro rfl
      intro v hv
      obtain ⟨i, hi⟩ := List.mem_iff_getElem?.1 hv
      have hlt : i < out.length := (List.getElem?_eq_some_iff.1 hi).1
      have := (List.forall₂_iff_get.1 h2).2 i hlt hlt
      rw [List.getElem?_eq_getElem hlt] at hi
      simp only [List.get_eq_getElem, Option.some.inj hi] at this
      exact this.f64
    · intro hF
      clear h1 hm
      induction h2 with
      | nil => rfl
      | @cons x v a b g1 g2 ih =>
        rw [ih fun w hw => hF w (by simp [hw])]
        have := g1.near _ (hF v (by simp))
        rw [sub_self, abs_zero] at this
        have := abs_eq_zero.1 (le_antisymm this (abs_nonneg _))
        have : (v : ℚ) = x := by linarith
        rw [show v = x by exact_mod_cast this]
  · simp only [ht, if_false, ne_eq, not_false_eq_true, true_or, iff_true, Except.ok.injEq] at h2 ⊢
    exact List.forall₂_eq_eq_eq ▸ h2

/-- C35, in every case: a sequence comes back with its length, each value exact or, in a field promoted to `float64`, rounded to the nearest
binary64 number (ties to even). -/
theorem C35_nearest_partial {bufSize : Nat} {name : Str} {recs : List (κ × List Int)} {f : SeqField κ}
    (h : SeqField.create bufSize name recs = .ok f) {id : κ} {arr : List Int} (hm : (id, arr) ∈ recs) :
    ∃ out, f.get id = .ok out ∧ List.Forall₂ (fun (x v : Int) => if f.ty = .f64 then Nearest64 (v : ℚ) (x : ℚ) else x = v) out arr :=
  (create_inv h).2.nearest hm

/-- C35, exactly when it holds: a sequence is read back unchanged if and only if the field has an integer type or every value of the sequence
is a binary64 number. -/
theorem C35_iff {bufSize : Nat} {name : Str} {recs : List (κ × List Int)} {f : SeqField κ}
    (h : SeqField.create bufSize name recs = .ok f) {id : κ} {arr : List Int} (hm : (id, arr) ∈ recs) :
    f.get id = .ok arr ↔ f.ty ≠ .f64 ∨ ∀ v ∈ arr, F64 (v : ℚ) :=
  (create_inv h).2.get_iff hm

/-- a field promoted to `float64`: of two numbers above 2^53 the one that is a binary64 number comes back -/
example : (match SeqField.create 1 (lit "x") [((0 : Nat), [9007199254740994]), (1, [9007199254740995])] with
    | .ok f => [decide (f.ty = .f64), decide (f.get 0 = .ok [9007199254740994]), decide (f.get 1 = .ok [9007199254740995])]
    | .error _ => []) = [true, true, false] := by decide +kernel

/-- C35 for iteration: `values()` gives the sequences in the order they were added. -/
theorem C35_values_partial {bufSize : Nat} {name : Str} {recs : List (κ × List Int)} {f : SeqField κ}
    (h : SeqField.create bufSize name recs = .ok f) (hx : f.ty ≠ .f64 ∨ ∀ r ∈ recs, ∀ v ∈ r.2, v.natAbs ≤ 2 ^ 53) :
    f.values = recs.map (·.2) := by
  have hv := (create_inv h).2.values
  generalize f.values = vs at hv
  clear h
  induction hv with
  | nil => rfl
  | cons h1 _ ih =>
    rw [List.map_cons, ← ih (hx.imp id fun h r hr => h r (by simp [hr])), exact_of_stored h1 (hx.imp id fun h => h _ (by simp))]

/-- C35 is false: a field whose only sequence is `[2^53 + 1]` returns `[2^53]` (the empty start array of type `int8` and the
`uint64` data are promoted to `float64`). -/
theorem C35_refuted : ∃ f : SeqField Nat, SeqField.create 1 (lit "x") [(0, [9007199254740993])] = .ok f ∧ f.get 0 = .ok [9007199254740992] := by
  have h : (match SeqField.create 1 (lit "x") [((0 : Nat), [9007199254740993])] with
    | .ok f => f.get 0
    | .error e => .error e) = .ok [9007199254740992] := by decide +kernel
  cases hc : SeqField.create 1 (lit "x") [((0 : Nat), [9007199254740993])] with
  | error e => rw [hc] at h; cases h
  | ok f => rw [hc] at h; exact ⟨f, rfl, h⟩

/-- three records with different magnitudes, flushed after every record -/
example : (match SeqField.create 1 (lit "x") [(7, [1, -2]), (3, []), (5, [70000, 255])] with
    | .ok f => (f.ty, f.refsTy, f.get 7, f.get 3, f.get 5)
    | .error _ => (.f64, .f64, .error .key, .error .key, .error .key)) =
    (.i64, .u8, .ok [1, -2], .ok [], .ok [70000, 255]) := by decide +kernel

example : (SeqField.create 1 (lit "x") [(7, [1, -2]), (3, []), (5, [70000, 255])]).toOption.map (·.values) =
    some [[1, -2], [], [70000, 255]] := by decide +kernel

/-- flush points matter: unflushed together the same values do not fit any type -/
example : (SeqField.create 100 (lit "x") [(0, [-1]), (1, [2 ^ 63])]).toOption.isNone = true ∧
    (SeqField.create 1 (lit "x") [(0, [-1]), (1, [2 ^ 63])]).toOption.isSome = true := by decide +kernel

/-! ## C36 -/

/-- C36: the offsets are non-negative, `start + length` does not exceed the data nor the range of the offset type, so the
addition does not wrap around; and lengths are the true lengths. -/
theorem C36_no_overflow {bufSize : Nat} {name : Str} {recs : List (κ × List Int)} {f : SeqField κ}
    (h : SeqField.create bufSize name recs = .ok f) :
    (∀ r ∈ f.refs, 0 ≤ r.1 ∧ 0 ≤ r.2 ∧ r.1 + r.2 ≤ f.data.length ∧ r.1 + r.2 ≤ f.refsTy.hi ∧ f.refsTy.cast (r.1 + r.2) = r.1 + r.2) ∧
    ∀ r ∈ recs, f.getLen r.1 = .ok (r.2.length : Int) := by
  obtain ⟨_, hf⟩ := create_inv h
  obtain ⟨t1, t2, t3⟩ := hf.ty
  constructor
  · intro r hr
    rw [hf.refs] at hr
    obtain ⟨q, hq, rfl⟩ := List.mem_map.1 hr
    obtain ⟨i, hi⟩ := List.mem_iff_getElem?.1 hq
    have hil : i < recs.length := by rw [← offsets_length 0 recs]; exact (List.getElem?_eq_some_iff.1 hi).1
    obtain ⟨g1, _, g3⟩ := offsets_get recs i _ (List.getElem?_eq_getElem hil)
    rw [g1] at hi
    cases hi
    have hd := hf.data.length_eq
    simp only
    have hle : ((flat (recs.take i)).length : Int) + (recs[i].2.length : Int) ≤ (flat recs).length := by omega
    refine ⟨by omega, by omega, by omega, by omega, ?_⟩
    exact NpTy.cast_of_range t1 (by omega) (by omega)
  · intro r hr
    obtain ⟨i, hi⟩ := List.mem_iff_getElem?.1 hr
    simp only [SeqField.getLen, hf.ref hi]

/-- 255 elements are the most for offsets of one byte -/
example : (match SeqField.create 1000 (lit "x") [(0, List.replicate 200 7), (1, List.replicate 55 8)] with
    | .ok f => (f.refsTy, f.refs)
    | .error _ => (.f64, [])) = (.u8, [(0, 200), (200, 55)]) := by decide +kernel
example : (match SeqField.create 1000 (lit "x") [(0, List.replicate 200 7), (1, List.replicate 56 8)] with
    | .ok f => (f.refsTy, f.refs)
    | .error _ => (.f64, [])) = (.u16, [(0, 200), (200, 56)]) := by decide +kernel

/-! ## C37 -/

/-- C37: a field is never built from no records or from records with a repeated id. -/
theorem C37_field {bufSize : Nat} {name : Str} {recs : List (κ × List Int)} {f : SeqField κ}
    (h : SeqField.create bufSize name recs = .ok f) : recs ≠ [] ∧ (recs.map (·.1)).Nodup :=
  ⟨(create_inv h).2.ne, (create_inv h).2.nodup⟩

/-- C37: nor is a database; and all records have as many columns as there are fields. -/
theorem C37_db {bufSize : Nat} {ns : List Str} {recs : List (κ × List (List Int))} {db : Db κ} (h : Db.create bufSize ns recs = .ok db) :
    recs ≠ [] ∧ (recs.map (·.1)).Nodup ∧ ns ≠ [] ∧ ∀ r ∈ recs, r.2.length = ns.length := by
  simp only [Db.create] at h
  cases hc : createMany bufSize ns recs with
  | error e => simp [hc] at h
  | ok fs =>
    simp only [hc] at h
    obtain ⟨c1, c2, c3⟩ := createMany_ok hc
    obtain ⟨m1, m2, m3, f0, m4, m5, m6⟩ := dbMake_ok h
    obtain ⟨n0, i0⟩ := c3 0 f0 m4
    refine ⟨?_, ?_, ?_, c2⟩
    · rintro rfl; exact i0.ne rfl
    · rw [← column_ids recs 0]; exact i0.nodup
    · rintro rfl; simp at n0

/-- C37, exactly which records are accepted: with values of 64 bits, one record or more, no id twice, and as many columns as there are fields. -/
theorem C37_iff (bufSize : Nat) {ns : List Str} {recs : List (κ × List (List Int))}
    (hv : ∀ r ∈ recs, ∀ c ∈ r.2, ∀ v ∈ c, -2 ^ 63 ≤ v ∧ v < 2 ^ 63) (hlen : ((recs.map fun r => (r.2.map List.length).sum).sum : Nat) < 2 ^ 64) :
    (∃ db, Db.create bufSize ns recs = .ok db) ↔ recs ≠ [] ∧ (recs.map (·.1)).Nodup ∧ ns ≠ [] ∧ ∀ r ∈ recs, r.2.length = ns.length :=
  ⟨fun ⟨_, h⟩ => C37_db h, fun ⟨h1, h2, h3, h4⟩ => dbCreate_succeeds h3 h1 h2 h4 hv hlen⟩

theorem bestDtype_exc {mn mx : Int} {e : Exc} (h : bestDtype mn mx = .error e) : e = .assertion := by
  by_cases hf : ¬ Fits false 64 mn mx ∧ ¬ Fits true 64 mn mx
  · rw [(C34_fails_iff mn mx).2 hf] at h
    exact (Except.error.inj h).symm
  · simp only [bestDtype] at h
    split at h
    · cases h
    · exact (Except.error.inj h).symm

omit [DecidableEq κ] in
theorem shrink_exc {b : Builder κ} {e : Exc} (h : b.shrink = .error e) : e = .assertion := by
  simp only [Builder.shrink] at h
  split at h
  · cases h
  · cases hd : bestDtype (listMin b.buffer) (listMax b.buffer) with
    | error x => rw [hd] at h; cases h; exact bestDtype_exc hd
    | ok t => rw [hd] at h; cases h

theorem append_exc {bufSize : Nat} {b : Builder κ} {id : κ} {arr : List Int} {e : Exc} (h : b.append bufSize id arr = .error e) : e = .assertion := by
  simp only [Builder.append] at h
  split at h
  · exact shrink_exc h
  · cases h

omit [DecidableEq κ] in
theorem build_exc {b : Builder κ} {n : Str} {e : Exc} (h : b.build n = .error e) : e = .assertion := by
  simp only [Builder.build] at h
  cases hs : b.shrink with
  | error x => rw [hs] at h; cases h; exact shrink_exc hs
  | ok b1 =>
    simp only [hs] at h
    cases hd : bestDtype 0 (max b1.frozen.length b1.maxLen : Nat) with
    | error x => rw [hd] at h; cases h; exact bestDtype_exc hd
    | ok t =>
      simp only [hd, SeqField.make] at h
      repeat' split at h
      all_goals first | cases h; rfl | cases h

theorem appendRow_exc {bufSize : Nat} {id : κ} {bs : List (Builder κ)} {cs : List (List Int)} {e : Exc}
    (h : appendRow bufSize id bs cs = .error e) : e = .assertion := by
  induction bs generalizing cs with
  | nil => simp [appendRow] at h
  | cons b bs ih =>
    cases cs with
    | nil => simp [appendRow] at h
    | cons c cs =>
      simp only [appendRow] at h
      cases ha : b.append bufSize id c with
      | error x => rw [ha] at h; cases h; exact append_exc ha
      | ok b1 =>
        simp only [ha] at h
        cases hr : appendRow bufSize id bs cs with
        | error x => rw [hr] at h; cases h; exact ih hr
        | ok bs1 => rw [hr] at h; cases h

theorem appendRows_exc {bufSize : Nat} {bs : List (Builder κ)} {recs : List (κ × List (List Int))} {e : Exc}
    (h : appendRows bufSize bs recs = .error e) : e = .assertion := by
  induction recs generalizing bs with
  | nil => simp [appendRows] at h
  | cons r recs ih =>
    simp only [appendRows] at h
    split at h
    · cases h; rfl
    · cases hr : appendRow bufSize r.1 bs r.2 with
      | error x => rw [hr] at h; cases h; exact appendRow_exc hr
      | ok bs1 => rw [hr] at h; exact ih h

omit [DecidableEq κ] in
theorem buildAll_exc {ns : List Str} {bs : List (Builder κ)} {e : Exc} (h : buildAll ns bs = .error e) : e = .assertion := by
  induction ns generalizing bs with
  | nil => simp [buildAll] at h
  | cons n ns ih =>
    cases bs with
    | nil => simp [buildAll] at h
    | cons b bs =>
      simp only [buildAll] at h
      cases ha : b.build n with
      | error x => rw [ha] at h; cases h; exact build_exc ha
      | ok f =>
        simp only [ha] at h
        cases hr : buildAll ns bs with
        | error x => rw [hr] at h; cases h; exact ih hr
        | ok fs => rw [hr] at h; cases h

/-- C37, the exception: with one field or more, whatever is refused is refused by AssertionError. -/
theorem C37_exception {bufSize : Nat} {ns : List Str} (hns : ns ≠ []) {recs : List (κ × List (List Int))} {e : Exc}
    (h : Db.create bufSize ns recs = .error e) : e = .assertion := by
  simp only [Db.create] at h
  cases hc : createMany bufSize ns recs with
  | error x =>
    rw [hc] at h
    cases h
    simp only [createMany] at hc
    cases ha : appendRows bufSize (ns.map fun _ => Builder.new) recs with
    | error y => rw [ha] at hc; cases hc; exact appendRows_exc ha
    | ok bs => rw [ha] at hc; exact buildAll_exc hc
  | ok fs =>
    simp only [hc] at h
    have hl := (createMany_ok hc).1
    cases fs with
    | nil => exact absurd (List.length_eq_zero_iff.1 hl.symm) hns
    | cons f fs =>
      simp only [Db.make] at h
      split at h
      · cases h
      · cases h; rfl

example : (SeqField.create 10 (lit "x") ([] : List (Nat × List Int))).toOption.isNone = true ∧
    (SeqField.create 10 (lit "x") [(1, [5]), (2, [6]), (1, [7])]).toOption.isNone = true ∧
    (Db.create 10 [lit "x", lit "y"] [(1, [[5], [6]]), (2, [[7]])]).toOption.isNone = true ∧
    (Db.create 10 [lit "x", lit "y"] [(1, [[5], [6]]), (2, [[7], []])]).toOption.isSome = true := by decide +kernel

/-- a record with too few columns; an id twice; no records; a number beyond 64 bits -/
example : ([[((1 : Nat), [[5], [6]]), (2, [[7]])], [(1, [[5], [6]]), (1, [[7], [8]])], [], [(1, [[2 ^ 64], [6]])]].map fun recs =>
    match Db.create 10 [lit "x", lit "y"] recs with
    | .error e => some e
    | .ok _ => none) = [some .assertion, some .assertion, some .assertion, some .assertion] := by decide +kernel

/-! ## C38 -/

/-- the values are exact in `float64` -/
def Spec.Exact (recs : List (κ × List (List Int))) : Prop := ∀ r ∈ recs, ∀ c ∈ r.2, ∀ v ∈ c, v.natAbs ≤ 2 ^ 53

/-- C38: a database of records with distinct ids and as many columns as field names can be created (values up to 2^53, see C35). -/
theorem C38_created_partial (bufSize : Nat) {ns : List Str} {recs : List (κ × List (List Int))} (hns : ns ≠ []) (hne : recs ≠ [])
    (hnd : (recs.map (·.1)).Nodup) (hw : ∀ r ∈ recs, r.2.length = ns.length) (hv : Exact recs)
    (hlen : ((recs.map fun r => (r.2.map List.length).sum).sum : Nat) < 2 ^ 64) : ∃ db, Db.create bufSize ns recs = .ok db :=
  dbCreate_succeeds hns hne hnd hw (fun r hr c hc v hvc => by have := hv r hr c hc v hvc; omega) hlen

/-- C38, for values up to 2^53 (missing: larger values, see `C38_refuted`): `len` is the number of records, lookup returns the columns stored under the id, other ids raise KeyError. -/
theorem C38_lookup_partial {bufSize : Nat} {ns : List Str} (hns : ns.Nodup) {recs : List (κ × List (List Int))} (hv : Exact recs) {db : Db κ}
    (h : Db.create bufSize ns recs = .ok db) :
    db.len = recs.length ∧ (∀ r ∈ recs, db.get r.1 = .ok r) ∧ ∀ id, id ∉ recs.map (·.1) → db.get id = .error .key := by
  have hd := dbCreate_ok hns h
  refine ⟨hd.len, ?_, ?_⟩
  · intro r hr
    obtain ⟨i, hi⟩ := List.mem_iff_getElem?.1 hr
    have := hd.cols hi (Or.inr (hv r hr)) 0
    simp only [List.drop_zero] at this
    simp only [Db.get, hd.names, this]
  · intro id hid
    obtain ⟨n, ns', rfl⟩ := List.exists_cons_of_ne_nil hd.ne.1
    obtain ⟨f, g1, g2⟩ := hd.fields 0 n rfl
    have hk : Dict.get? f.ids id = none := by
      rw [Dict.get?_eq_none_iff]
      intro hm
      exact hid (by rw [← column_ids recs 0]; exact (g2.keys id).1 hm)
    simp only [Db.get, hd.names, Db.cols, g1, SeqField.get, SeqField.ref, hk]

theorem cols_iff {db : Db κ} {id : κ} {ns : List Str} {cs : List (List Int)} : db.cols id ns = .ok cs ↔
    List.Forall₂ (fun n c => ∃ f, Dict.get? db.fields n = some f ∧ f.get id = .ok c) ns cs := by
  induction ns generalizing cs with
  | nil => simp [Db.cols, eq_comm]
  | cons n ns ih =>
    simp only [Db.cols]
    constructor
    · intro h
      cases hf : Dict.get? db.fields n with
      | none => simp [hf] at h
      | some f =>
        cases hg : f.get id with
        | error e => simp [hf, hg] at h
        | ok c =>
          cases hr : db.cols id ns with
          | error e => simp [hf, hg, hr] at h
          | ok rs =>
            simp only [hf, hg, hr, Except.ok.injEq] at h
            subst h
            exact .cons ⟨f, hf, hg⟩ (ih.1 hr)
    · intro h
      cases h with
      | cons h1 h2 =>
        obtain ⟨f, h3, h4⟩ := h1
        simp only [h3, h4, ih.2 h2]

/-- C38, exactly when it holds: a record is looked up unchanged if and only if each of its columns is in a field of an integer type or consists of
binary64 numbers. -/
theorem C38_iff {bufSize : Nat} {ns : List Str} (hns : ns.Nodup) {recs : List (κ × List (List Int))} {db : Db κ}
    (h : Db.create bufSize ns recs = .ok db) {r : κ × List (List Int)} (hr : r ∈ recs) :
    db.get r.1 = .ok r ↔ ∀ (j : Nat) (n : Str) (f : SeqField κ) (c : List Int), ns[j]? = some n → Dict.get? db.fields n = some f → r.2[j]? = some c →
      f.ty ≠ .f64 ∨ ∀ v ∈ c, F64 (v : ℚ) := by
  have hd := dbCreate_ok hns h
  have hw := hd.width r hr
  have key : ∀ (j : Nat) (n : Str) (f : SeqField κ) (c : List Int), ns[j]? = some n → Dict.get? db.fields n = some f → r.2[j]? = some c →
      (f.get r.1 = .ok c ↔ f.ty ≠ .f64 ∨ ∀ v ∈ c, F64 (v : ℚ)) := by
    intro j n f c h1 h2 h3
    obtain ⟨f', g1, g2⟩ := hd.fields j n h1
    rw [h2] at g1
    cases g1
    refine g2.get_iff (List.mem_map.2 ⟨r, hr, ?_⟩)
    simp [List.getD_eq_getElem?_getD, h3]
  have h1 : db.get r.1 = .ok r ↔ db.cols r.1 ns = .ok r.2 := by
    simp only [Db.get, hd.names]
    cases db.cols r.1 ns with
    | error e => simp
    | ok cs => simp [Prod.ext_iff]
  rw [h1, cols_iff]
  constructor
  · intro hf j n f c h1 h2 h3
    obtain ⟨hj, rfl⟩ := List.getElem?_eq_some_iff.1 h1
    obtain ⟨hj', rfl⟩ := List.getElem?_eq_some_iff.1 h3
    obtain ⟨f', g1, g2⟩ := (List.forall₂_iff_get.1 hf).2 j hj hj'
    simp only [List.get_eq_getElem] at g1 g2
    rw [h2] at g1
    cases g1
    exact (key j _ f _ h1 h2 h3).1 g2
  · intro hf
    refine List.forall₂_iff_get.2 ⟨hw.symm, fun j hj hj' => ?_⟩
    simp only [List.get_eq_getElem]
    have e1 := List.getElem?_eq_getElem hj
    have e2 := List.getElem?_eq_getElem hj'
    obtain ⟨f, g1, _⟩ := hd.fields j _ e1
    exact ⟨f, g1, (key j _ f _ e1 g1 e2).2 (hf j _ f _ e1 g1 e2)⟩

/-- the second column of the record is in a field of type `float64`, the first is not -/
example : (match Db.create 1 [lit "x", lit "y"] [((0 : Nat), [[9007199254740993], [9007199254740994]]), (1, [[-1], [3]])] with
    | .ok db => [decide (db.get 0 = .ok (0, [[9007199254740993], [9007199254740994]])), decide (db.get 1 = .ok (1, [[-1], [3]]))]
    | .error _ => []) = [false, true] := by decide +kernel

theorem getAll_map {db : Db κ} {l : List (κ × List (List Int))} (h : ∀ r ∈ l, db.get r.1 = .ok r) : db.getAll (l.map (·.1)) = .ok l := by
  induction l with
  | nil => rfl
  | cons r l ih =>
    simp only [List.map_cons, Db.getAll, h r (by simp), ih fun r hr => h r (by simp [hr])]

/-- C38, for values up to 2^53 (missing: larger values): iteration yields every record exactly once, for every iteration order of the id set. -/
theorem C38_iterate_partial {bufSize : Nat} {ns : List Str} (hns : ns.Nodup) {recs : List (κ × List (List Int))} (hv : Exact recs) {db : Db κ}
    (h : Db.create bufSize ns recs = .ok db) {ord : List κ → List κ} (hord : ∀ l, (ord l).Perm l) :
    ∃ rs, db.iter ord false = .ok rs ∧ rs.Perm recs := by
  have hd := dbCreate_ok hns h
  have hl := (C38_lookup_partial hns hv h).2.1
  have hp : (ord db.ids).Perm (recs.map (·.1)) := (hord _).trans ((List.perm_ext_iff_of_nodup hd.idsNodup hd.nodup).2 hd.ids)
  obtain ⟨rs, h1, h2⟩ := perm_map_inv hp
  refine ⟨rs, ?_, h1⟩
  simp only [Db.iter, Bool.false_and, Bool.false_eq_true, if_false]
  rw [h2]
  exact getAll_map fun r hr => hl r (h1.mem_iff.1 hr)

/-- C38 inherits the defect of C35: the column `[2^53 + 1]` is returned as `[2^53]`. -/
theorem C38_refuted : ∃ db : Db Nat, Db.create 10 [lit "x"] [(0, [[9007199254740993]])] = .ok db ∧ db.get 0 = .ok (0, [[9007199254740992]]) := by
  have h : (match Db.create 10 [lit "x"] [((0 : Nat), [[9007199254740993]])] with
    | .ok db => db.get 0
    | .error e => .error e) = .ok (0, [[9007199254740992]]) := by decide +kernel
  cases hc : Db.create 10 [lit "x"] [((0 : Nat), [[9007199254740993]])] with
  | error e => rw [hc] at h; cases h
  | ok db => rw [hc] at h; exact ⟨db, rfl, h⟩

/-- two fields, three records, one of them with an empty column -/
def exRecs : List (Nat × List (List Int)) := [(5, [[1, 2], [300]]), (9, [[], [-4]]), (2, [[70000], [0, 0]])]

example : exRecs.map (·.1) = [5, 9, 2] ∧ (exRecs.map (·.1)).Nodup ∧ Exact exRecs ∧
    (match Db.create 2 [lit "x", lit "y"] exRecs with
      | .ok db => decide (db.len = 3) && decide (db.get 2 = .ok (2, [[70000], [0, 0]])) && decide (db.get 4 = .error .key) &&
          decide (db.iter List.reverse false = .ok exRecs.reverse)
      | .error _ => false) = true := by
  refine ⟨rfl, by decide, ?_, by decide +kernel⟩
  unfold Exact exRecs
  decide

/-- C38, without ids, for values up to 2^53 (missing: larger values): the records are numbered from zero. -/
theorem C38_numbered_partial {bufSize : Nat} {ns : List Str} (hns : ns.Nodup) {rows : List (List (List Int))}
    (hv : ∀ r ∈ rows, ∀ c ∈ r, ∀ v ∈ c, v.natAbs ≤ 2 ^ 53) {db : Db Nat} (h : Db.create bufSize ns (withIds rows) = .ok db) :
    db.len = rows.length ∧ ∀ i (hi : i < rows.length), db.get i = .ok (i, rows[i]) := by
  have hget : ∀ i (hi : i < rows.length), (withIds rows)[i]? = some (i, rows[i]) := by
    intro i hi
    simp [withIds, hi]
  have hlen : (withIds rows).length = rows.length := by simp [withIds]
  have hx : Exact (withIds rows) := by
    intro r hr
    obtain ⟨i, hi⟩ := List.mem_iff_getElem?.1 hr
    have hil : i < rows.length := by rw [← hlen]; exact (List.getElem?_eq_some_iff.1 hi).1
    rw [hget i hil] at hi
    cases hi
    exact hv _ (List.getElem_mem hil)
  obtain ⟨h1, h2, _⟩ := C38_lookup_partial hns hx h
  exact ⟨by rw [h1, hlen], fun i hi => h2 (i, rows[i]) (List.mem_iff_getElem?.2 ⟨i, hget i hi⟩)⟩

example : withIds [[[7]], [[8, 9]]] = [(0, [[7]]), (1, [[8, 9]])] := by decide

/-! ## C39 -/

/-- C39 is false: iterating a shuffled database of two records raises TypeError, whatever the order of the id set. -/
theorem C39_refuted : ∃ db : Db Nat, Db.create 10 [lit "x"] [(0, [[1]]), (1, [[2]])] = .ok db ∧ ∀ ord, db.iter ord true = .error .type := by
  have h : (match Db.create 10 [lit "x"] [((0 : Nat), [[1]]), (1, [[2]])] with
    | .ok db => decide (2 ≤ db.ids.length)
    | .error _ => false) = true := by decide +kernel
  cases hc : Db.create 10 [lit "x"] [((0 : Nat), [[1]]), (1, [[2]])] with
  | error e => rw [hc] at h; cases h
  | ok db =>
    rw [hc] at h
    simp only at h
    exact ⟨db, rfl, fun ord => by simp only [Db.iter, h, Bool.and_true, if_true]⟩

/-- C39 fails for every database of two or more records. -/
theorem C39_shuffle_type_refuted {bufSize : Nat} {ns : List Str} (hns : ns.Nodup) {recs : List (κ × List (List Int))} {db : Db κ}
    (h : Db.create bufSize ns recs = .ok db) (h2 : 2 ≤ recs.length) (ord : List κ → List κ) : db.iter ord true = .error .type := by
  have hd := dbCreate_ok hns h
  have hl : db.ids.length = recs.length := by
    have := ((List.perm_ext_iff_of_nodup hd.idsNodup hd.nodup).2 hd.ids).length_eq
    simpa using this
  simp only [Db.iter, hl, h2, decide_true, Bool.and_true, if_true]

/-- C39, as far as it holds: a shuffled database of one record.
Missing: two or more records, see `C39_shuffle_type_refuted`. -/
theorem C39_single_partial {bufSize : Nat} {ns : List Str} (hns : ns.Nodup) {r : κ × List (List Int)} (hv : Exact [r]) {db : Db κ}
    (h : Db.create bufSize ns [r] = .ok db) {ord : List κ → List κ} (hord : ∀ l, (ord l).Perm l) : db.iter ord true = .ok [r] := by
  have hd := dbCreate_ok hns h
  have hl : db.ids.length = 1 := by
    have := ((List.perm_ext_iff_of_nodup hd.idsNodup hd.nodup).2 hd.ids).length_eq
    simpa using this
  obtain ⟨rs, h1, h2⟩ := C38_iterate_partial hns hv h hord
  rw [List.perm_singleton] at h2
  subst h2
  simp only [Db.iter, hl] at h1 ⊢
  simpa using h1

example : (match Db.create 10 [lit "x", lit "y"] [(5, [[1], [2]])] with
    | .ok db => db.iter id true
    | .error e => .error e) = .ok [((5 : Nat), [[1], [2]])] := by decide +kernel

/-- C39, exactly when it holds: a shuffled database gives all its records if and only if it has one record. -/
theorem C39_iff {bufSize : Nat} {ns : List Str} (hns : ns.Nodup) {recs : List (κ × List (List Int))} (hv : Exact recs) {db : Db κ}
    (h : Db.create bufSize ns recs = .ok db) {ord : List κ → List κ} (hord : ∀ l, (ord l).Perm l) :
    (∃ out, db.iter ord true = .ok out ∧ out.Perm recs) ↔ recs.length = 1 := by
  constructor
  · rintro ⟨out, h1, h2⟩
    have hne := (dbCreate_ok hns h).ne.2
    by_contra hl
    have : 2 ≤ recs.length := by
      have := List.length_pos_of_ne_nil hne
      omega
    rw [C39_shuffle_type_refuted hns h this ord] at h1
    cases h1
  · intro hl
    obtain ⟨r, rfl⟩ := List.length_eq_one_iff.1 hl
    exact ⟨[r], C39_single_partial hns hv h hord, List.Perm.refl _⟩

end Verif
