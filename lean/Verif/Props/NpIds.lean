import Verif.Model.NpIds
import Verif.Props.Batch
import Verif.Lemmas.Chars
/-!
# Equal-length batching, whatever the record ids are (C105)
-/

namespace Verif

open Spec

/-- the ids are numbers of 64 bits, and either all fit the signed type, or none does, or all are numbers of binary64 -/
inductive Spec.IdsKept (ids : List RecId) : Prop where
  | signed (h : ∀ id ∈ ids, ∃ n : Int, id = .int n ∧ -2 ^ 63 ≤ n ∧ n < 2 ^ 63)
  | unsigned (h : ∀ id ∈ ids, ∃ n : Int, id = .int n ∧ 2 ^ 63 ≤ n ∧ n < 2 ^ 64)
  | exact (h : ∀ id ∈ ids, ∃ n : Int, id = .int n ∧ -2 ^ 63 ≤ n ∧ n < 2 ^ 64 ∧ F64 n)

/-- an id of the kinds considered: a text, or a number of 64 bits -/
def Spec.IdOf64 (id : RecId) : Prop := ∀ n : Int, id = .int n → -2 ^ 63 ≤ n ∧ n < 2 ^ 64

/-- the ids of the records without empty columns -/
def Spec.fullIds (recs : List (RecId × List (List Int))) : List RecId := (recs.filter fun r => decide (Full r)).map (·.1)

/-! ## helper lemmas -/

theorem roundF64_iff (n : Int) : roundF64 n = n ↔ F64 n := by
  have h := rnd64_nearest n
  rw [← roundF64_eq] at h
  constructor
  · intro e
    rw [e] at h
    exact h.f64
  · intro hf
    have := h.near n hf
    rw [sub_self, abs_zero] at this
    have h2 := abs_nonpos_iff.1 this
    have h3 : (n : ℚ) = (roundF64 n : ℚ) := by linarith
    exact_mod_cast h3.symm

theorem roundF64_F64 (n : Int) : F64 (roundF64 n : ℚ) := by
  rw [roundF64_eq]
  exact (rnd64_nearest _).f64

theorem foldl_promote (l : List NpTy) (hl : ∀ t ∈ l, t = .i64 ∨ t = .u64) (t0 : NpTy) (h0 : t0 = .i64 ∨ t0 = .u64 ∨ t0 = .f64) :
    l.foldl NpTy.promote t0 = (if (t0 = .i64 ∧ .u64 ∉ l) then NpTy.i64 else if (t0 = .u64 ∧ .i64 ∉ l) then .u64 else .f64) := by
  induction l generalizing t0 with
  | nil => rcases h0 with rfl | rfl | rfl <;> simp
  | cons t l ih =>
    have ih := fun t0 h0 => ih (fun t ht => hl t (by simp [ht])) t0 h0
    rw [List.foldl_cons]
    rcases hl t (by simp) with rfl | rfl <;> rcases h0 with rfl | rfl | rfl
    · rw [show NpTy.promote .i64 .i64 = .i64 by decide, ih _ (.inl rfl)]; simp
    · rw [show NpTy.promote .u64 .i64 = .f64 by decide, ih _ (.inr (.inr rfl))]; simp
    · rw [show NpTy.promote .f64 .i64 = .f64 by decide, ih _ (.inr (.inr rfl))]; simp
    · rw [show NpTy.promote .i64 .u64 = .f64 by decide, ih _ (.inr (.inr rfl))]; simp
    · rw [show NpTy.promote .u64 .u64 = .u64 by decide, ih _ (.inr (.inl rfl))]; simp
    · rw [show NpTy.promote .f64 .u64 = .f64 by decide, ih _ (.inr (.inr rfl))]; simp

theorem npTy_cases (id : RecId) : id.npTy = .i64 ∨ id.npTy = .u64 := by
  cases id with
  | int n => simp only [RecId.npTy]; split <;> simp
  | str s => exact .inl rfl

/-- the type of the array of rows -/
theorem rowsTy (rows : List (RecId × Int)) (hne : rows ≠ []) : (rows.map fun r => r.1.npTy).foldl NpTy.promote .u32 =
    if (∀ r ∈ rows, r.1.npTy = .i64) then NpTy.i64 else if (∀ r ∈ rows, r.1.npTy = .u64) then .u64 else .f64 := by
  obtain ⟨r, rs, rfl⟩ := List.exists_cons_of_ne_nil hne
  have hall : ∀ t ∈ rs.map (fun r => r.1.npTy), t = .i64 ∨ t = .u64 := by
    intro t ht
    obtain ⟨s, _, rfl⟩ := List.mem_map.1 ht
    exact npTy_cases _
  have e1 : (NpTy.u64 ∉ rs.map fun r => r.1.npTy) ↔ ∀ s ∈ rs, s.1.npTy = .i64 := by
    constructor
    · intro h s hs
      rcases npTy_cases s.1 with h' | h'
      · exact h'
      · exact absurd (List.mem_map.2 ⟨s, hs, h'⟩) h
    · intro h hm
      obtain ⟨s, hs, h'⟩ := List.mem_map.1 hm
      rw [h s hs] at h'
      cases h'
  have e2 : (NpTy.i64 ∉ rs.map fun r => r.1.npTy) ↔ ∀ s ∈ rs, s.1.npTy = .u64 := by
    constructor
    · intro h s hs
      rcases npTy_cases s.1 with h' | h'
      · exact absurd (List.mem_map.2 ⟨s, hs, h'⟩) h
      · exact h'
    · intro h hm
      obtain ⟨s, hs, h'⟩ := List.mem_map.1 hm
      rw [h s hs] at h'
      cases h'
  rw [List.map_cons, List.foldl_cons]
  rcases npTy_cases r.1 with h | h
  · rw [h, show NpTy.promote .u32 .i64 = .i64 by decide, foldl_promote _ hall _ (.inl rfl)]
    simp only [true_and, e1, List.forall_mem_cons, h]
    simp
  · rw [h, show NpTy.promote .u32 .u64 = .u64 by decide, foldl_promote _ hall _ (.inr (.inl rfl))]
    simp only [true_and, e2, List.forall_mem_cons, h]
    simp

theorem isStr_false {id : RecId} (h : id.isStr = false) : ∃ n, id = .int n := by
  cases id with
  | int n => exact ⟨n, rfl⟩
  | str s => cases h

theorem npTy_i64 {n : Int} : (RecId.int n).npTy = .i64 ↔ n < 2 ^ 63 := by
  simp only [RecId.npTy, NpTy.hi]
  by_cases h : n ≤ 9223372036854775807
  · simp [h]; omega
  · simp [h]; omega

theorem npTy_u64 {n : Int} : (RecId.int n).npTy = .u64 ↔ 2 ^ 63 ≤ n := by
  simp only [RecId.npTy, NpTy.hi]
  by_cases h : n ≤ 9223372036854775807
  · simp [h]; omega
  · simp [h]; omega

theorem cast_f64 (n : Int) : NpTy.cast .f64 n = roundF64 n := by simp [NpTy.cast]

/-- ids that are kept are unchanged by the array -/
theorem idArray_kept {rows : List (RecId × Int)} (hne : rows ≠ []) (h : IdsKept (rows.map (·.1))) : idArray rows = .ok rows := by
  have hint : ∀ r ∈ rows, ∃ n : Int, r.1 = .int n ∧ -2 ^ 63 ≤ n ∧ n < 2 ^ 64 := by
    intro r hr
    have hm : r.1 ∈ rows.map (·.1) := List.mem_map.2 ⟨r, hr, rfl⟩
    rcases h with h | h | h
    · obtain ⟨n, e, h1, h2⟩ := h _ hm
      exact ⟨n, e, h1, by omega⟩
    · obtain ⟨n, e, h1, h2⟩ := h _ hm
      exact ⟨n, e, by omega, h2⟩
    · obtain ⟨n, e, h1, h2, _⟩ := h _ hm
      exact ⟨n, e, h1, h2⟩
  have hns : (rows.any fun r => r.1.isStr) = false := by
    rw [List.any_eq_false]
    intro r hr
    obtain ⟨n, e, _⟩ := hint r hr
    simp [e, RecId.isStr]
  simp only [idArray, hns, Bool.false_eq_true, if_false, rowsTy rows hne]
  congr 1
  conv_rhs => rw [← List.map_id rows]
  apply List.map_congr_left
  intro r hr
  obtain ⟨n, e, h1, h2⟩ := hint r hr
  suffices hs : ∀ ty : NpTy, (ty = if (∀ r ∈ rows, r.1.npTy = .i64) then NpTy.i64 else if (∀ r ∈ rows, r.1.npTy = .u64) then .u64 else .f64) →
      ty.cast n = n by
    obtain ⟨i, m⟩ := r
    dsimp only at e ⊢
    rw [e, RecId.cast, hs _ rfl]
    rfl
  intro ty hty
  by_cases c1 : ∀ r ∈ rows, r.1.npTy = .i64
  · rw [if_pos c1] at hty
    have := c1 r hr
    rw [e, npTy_i64] at this
    rw [hty, NpTy.cast_of_range (by decide) (by simp only [NpTy.lo]; omega) (by simp only [NpTy.hi]; omega)]
  · rw [if_neg c1] at hty
    by_cases c2 : ∀ r ∈ rows, r.1.npTy = .u64
    · rw [if_pos c2] at hty
      have := c2 r hr
      rw [e, npTy_u64] at this
      rw [hty, NpTy.cast_of_range (by decide) (by simp only [NpTy.lo]; omega) (by simp only [NpTy.hi]; omega)]
    · rw [if_neg c2] at hty
      rw [hty, cast_f64, roundF64_iff]
      rcases h with h | h | h
      · exfalso
        refine c1 fun r hr => ?_
        obtain ⟨n, e, _, h2⟩ := h _ (List.mem_map.2 ⟨r, hr, rfl⟩)
        rw [e, npTy_i64]
        exact h2
      · exfalso
        refine c2 fun r hr => ?_
        obtain ⟨n, e, h1, _⟩ := h _ (List.mem_map.2 ⟨r, hr, rfl⟩)
        rw [e, npTy_u64]
        exact h1
      · obtain ⟨n', e', _, _, h3⟩ := h _ (List.mem_map.2 ⟨r, hr, rfl⟩)
        rw [e] at e'
        cases e'
        exact h3

/-- if the ids are of 64 bits and not kept, the array is one of texts, or all ids in it are numbers of binary64 and one of the given
ids is not -/
theorem idArray_lost {rows : List (RecId × Int)} (hne : rows ≠ []) (h64 : ∀ r ∈ rows, IdOf64 r.1) (h : ¬ IdsKept (rows.map (·.1))) :
    ((∃ r ∈ rows, ∃ s, r.1 = .str s) ∧ idArray rows = .error .type) ∨
    ∃ arr, idArray rows = .ok arr ∧ (∀ a ∈ arr, ∃ n : Int, a.1 = .int n ∧ F64 n) ∧ ∃ r ∈ rows, ∃ n : Int, r.1 = .int n ∧ ¬ F64 n := by
  by_cases hs : (rows.any fun r => r.1.isStr) = true
  · left
    refine ⟨?_, by simp [idArray, hs]⟩
    obtain ⟨r, hr, h1⟩ := List.any_eq_true.1 hs
    cases hi : r.1 with
    | int n => rw [hi] at h1; cases h1
    | str s => exact ⟨r, hr, s, hi⟩
  · right
    have hint : ∀ r ∈ rows, ∃ n : Int, r.1 = .int n ∧ -2 ^ 63 ≤ n ∧ n < 2 ^ 64 := by
      intro r hr
      cases hi : r.1 with
      | int n => exact ⟨n, rfl, h64 r hr n hi⟩
      | str s => exact absurd (List.any_eq_true.2 ⟨r, hr, by rw [hi]; rfl⟩) hs
    have c1 : ¬ ∀ r ∈ rows, r.1.npTy = .i64 := by
      intro c
      refine h (.signed fun i hi => ?_)
      obtain ⟨r, hr, rfl⟩ := List.mem_map.1 hi
      obtain ⟨n, e, h1, _⟩ := hint r hr
      have := c r hr
      rw [e, npTy_i64] at this
      exact ⟨n, e, h1, this⟩
    have c2 : ¬ ∀ r ∈ rows, r.1.npTy = .u64 := by
      intro c
      refine h (.unsigned fun i hi => ?_)
      obtain ⟨r, hr, rfl⟩ := List.mem_map.1 hi
      obtain ⟨n, e, _, h2⟩ := hint r hr
      have := c r hr
      rw [e, npTy_u64] at this
      exact ⟨n, e, this, h2⟩
    refine ⟨_, by simp only [idArray, hs, Bool.false_eq_true, if_false, rowsTy rows hne, if_neg c1, if_neg c2]; rfl, ?_, ?_⟩
    · intro a ha
      obtain ⟨r, hr, rfl⟩ := List.mem_map.1 ha
      obtain ⟨n, e, _⟩ := hint r hr
      exact ⟨roundF64 n, by simp only [e, RecId.cast, cast_f64], roundF64_F64 n⟩
    · by_contra hc
      refine h (.exact fun i hi => ?_)
      obtain ⟨r, hr, rfl⟩ := List.mem_map.1 hi
      obtain ⟨n, e, h1, h2⟩ := hint r hr
      refine ⟨n, e, h1, h2, ?_⟩
      by_contra hf
      exact hc ⟨r, hr, n, e, hf⟩

theorem eqLoop_mem {κ : Type} [DecidableEq κ] {maxToks : Nat} {maxSents : Option Nat} {rows : List (κ × Int)} :
    ∀ {batch : List κ} {mx : Int} {bs : List (List κ)}, eqLoop maxToks maxSents rows batch mx = .ok bs →
      ∀ b ∈ bs, ∀ i ∈ b, i ∈ batch ∨ ∃ r ∈ rows, r.1 = i := by
  induction rows with
  | nil =>
    intro batch mx bs h b hb i hi
    simp only [eqLoop, Except.ok.injEq] at h
    subst h
    split at hb
    · simp at hb
    · simp only [List.mem_singleton] at hb
      subst hb
      exact .inl hi
  | cons r rows ih =>
    obtain ⟨j, n⟩ := r
    intro batch mx bs h b hb i hi
    rw [eqLoop] at h
    split at h
    · split at h
      · cases h
      · split at h
        · cases h
        · rename_i bs' hbs
          cases h
          rcases List.mem_cons.1 hb with rfl | hb
          · exact .inl hi
          · rcases ih hbs b hb i hi with h | ⟨r, h1, h2⟩
            · exact .inr ⟨(j, n), by simp, (List.mem_singleton.1 h).symm⟩
            · exact .inr ⟨r, by simp [h1], h2⟩
    · rcases ih h b hb i hi with h | ⟨r, h1, h2⟩
      · rcases List.mem_append.1 h with h | h
        · exact .inl h
        · exact .inr ⟨(j, n), by simp, (List.mem_singleton.1 h).symm⟩
      · exact .inr ⟨r, by simp [h1], h2⟩

theorem getAll_ids {κ : Type} [DecidableEq κ] {db : Db κ} : ∀ {is : List κ} {rs : List (κ × List (List Int))}, db.getAll is = .ok rs →
    rs.map (·.1) = is := by
  intro is
  induction is with
  | nil => intro rs h; simp only [Db.getAll, Except.ok.injEq] at h; subst h; rfl
  | cons i is ih =>
    intro rs h
    simp only [Db.getAll] at h
    cases hg : db.get i with
    | error e => rw [hg] at h; cases h
    | ok r =>
      rw [hg] at h
      cases ha : db.getAll is with
      | error e => rw [ha] at h; cases h
      | ok rs' =>
        rw [ha] at h
        cases h
        have : r.1 = i := by
          simp only [Db.get] at hg
          split at hg
          · cases hg
          · cases hg; rfl
        simp [this, ih ha]

/-- the rows of a database, as a permutation of its records without empty columns -/
theorem eqRows_perm {ns : List Str} (hns : ns.Nodup) {κ : Type} [DecidableEq κ] {recs : List (κ × List (List Int))} {db : Db κ}
    (hd : DInv ns recs db) {ord : List κ → List κ} (hord : ∀ l, (ord l).Perm l) :
    ∃ rows, db.eqRows (ord db.ids) = .ok rows ∧ (rows.map (·.1)).Perm ((recs.filter fun r => decide (Full r)).map (·.1)) := by
  have hp : (ord db.ids).Perm (recs.map (·.1)) := (hord _).trans ((List.perm_ext_iff_of_nodup hd.idsNodup hd.nodup).2 hd.ids)
  obtain ⟨rs, h1, h2⟩ := perm_map_inv hp
  refine ⟨_, by rw [h2]; exact hd.eqRows hns (rs := rs) fun r hr => h1.mem_iff.1 hr, ?_⟩
  rw [← filter_full, List.map_map]
  exact (h1.filter _).map _

theorem IdsKept.perm {a b : List RecId} (h : a.Perm b) : IdsKept a ↔ IdsKept b := by
  constructor <;> rintro (h' | h' | h')
  · exact .signed fun i hi => h' i (h.mem_iff.2 hi)
  · exact .unsigned fun i hi => h' i (h.mem_iff.2 hi)
  · exact .exact fun i hi => h' i (h.mem_iff.2 hi)
  · exact .signed fun i hi => h' i (h.mem_iff.1 hi)
  · exact .unsigned fun i hi => h' i (h.mem_iff.1 hi)
  · exact .exact fun i hi => h' i (h.mem_iff.1 hi)

/-- with ids that are kept the array makes no difference -/
theorem eqBatchesNp_kept {bufSize : Nat} {ns : List Str} (hns : ns.Nodup) {recs : List (RecId × List (List Int))} {db : Db RecId}
    (h : Db.create bufSize ns recs = .ok db) (hk : IdsKept (fullIds recs)) (maxToks : Nat) (maxSents : Option Nat)
    {ord : List RecId → List RecId} (hord : ∀ l, (ord l).Perm l) (shuf : List (RecId × Int) → List (RecId × Int))
    (shufB : List (List RecId) → List (List RecId)) :
    db.eqBatchesNp maxToks maxSents ord shuf shufB = db.eqBatches maxToks maxSents ord shuf shufB := by
  obtain ⟨rows, h1, h2⟩ := eqRows_perm hns (dbCreate_ok hns h) hord
  have : db.eqBatchIdsNp maxToks maxSents ord shuf = db.eqBatchIds maxToks maxSents ord shuf := by
    simp only [Db.eqBatchIdsNp, Db.eqBatchIds, h1]
    cases rows with
    | nil => rfl
    | cons r rows => simp only [idArray_kept (List.cons_ne_nil r rows) ((IdsKept.perm h2).2 hk)]
  simp only [Db.eqBatchesNp, Db.eqBatches, this]
  rcases db.eqBatchIds maxToks maxSents ord shuf with e | (_ | ⟨b, bs⟩) <;> rfl

/-! ## C105 -/

/-- C105, as far as it holds: if the ids of the records without empty columns are numbers of 64 bits that the array keeps, batches
are made as C45 says: all these records exactly once, within the budget. -/
theorem C105_kept_partial {bufSize : Nat} {ns : List Str} (hns : ns.Nodup) {recs : List (RecId × List (List Int))} {db : Db RecId}
    (h : Db.create bufSize ns recs = .ok db) (hk : IdsKept (fullIds recs)) (maxToks : Nat) (maxSents : Option Nat)
    {ord : List RecId → List RecId} (hord : ∀ l, (ord l).Perm l) {shuf : List (RecId × Int) → List (RecId × Int)}
    (hshuf : ∀ l, (shuf l).Perm l) {shufB : List (List RecId) → List (List RecId)} (hshufB : ∀ l, (shufB l).Perm l)
    (hsome : ∃ r ∈ recs, Full r) (hfit : ∀ r ∈ recs, Full r → ¬ Oversized maxToks r) :
    ∃ bs, db.eqBatchesNp maxToks maxSents ord shuf shufB = ⟨bs, none⟩ ∧ (bs.flatten.map (·.1)).Perm (fullIds recs) ∧
      ∀ b ∈ bs, b ≠ [] ∧ WithinBudget maxToks b ∧ (∀ k, maxSents = some k → b.length ≤ k + 1) ∧ ∀ r ∈ b, db.get r.1 = .ok r := by
  rw [eqBatchesNp_kept hns h hk maxToks maxSents hord]
  exact C45_partition hns h maxToks maxSents hord hshuf hshufB hsome hfit

/-- what happens to ids that are not kept -/
theorem C105_lost {bufSize : Nat} {ns : List Str} (hns : ns.Nodup) {recs : List (RecId × List (List Int))} {db : Db RecId}
    (h : Db.create bufSize ns recs = .ok db) (h64 : ∀ id ∈ fullIds recs, IdOf64 id) (hk : ¬ IdsKept (fullIds recs)) (maxToks : Nat)
    (maxSents : Option Nat) {ord : List RecId → List RecId} (hord : ∀ l, (ord l).Perm l)
    {shuf : List (RecId × Int) → List (RecId × Int)} (hshuf : ∀ l, (shuf l).Perm l) {shufB : List (List RecId) → List (List RecId)}
    (hshufB : ∀ l, (shufB l).Perm l) :
    ((∃ s, .str s ∈ fullIds recs) ∧ db.eqBatchesNp maxToks maxSents ord shuf shufB = ⟨[], some .type⟩) ∨
    ((∀ b ∈ (db.eqBatchesNp maxToks maxSents ord shuf shufB).out, ∀ r ∈ b, ∃ n : Int, r.1 = .int n ∧ F64 n) ∧
      ∃ n : Int, .int n ∈ fullIds recs ∧ ¬ F64 n) := by
  obtain ⟨rows, h1, h2⟩ := eqRows_perm hns (dbCreate_ok hns h) hord
  have hne : rows ≠ [] := by
    rintro rfl
    refine hk (.signed fun i hi => ?_)
    have := h2.symm.eq_nil
    simp only [fullIds, this] at hi
    cases hi
  have hmem : ∀ r ∈ rows, r.1 ∈ fullIds recs := fun r hr => h2.mem_iff.1 (List.mem_map.2 ⟨r, hr, rfl⟩)
  have hids : db.eqBatchIdsNp maxToks maxSents ord shuf = match idArray rows with
    | .error e => .error e
    | .ok arr => eqLoop maxToks maxSents ((shuf arr).insertionSort fun a b => a.2 ≤ b.2) [] 0 := by
    obtain ⟨r, rs, rfl⟩ := List.exists_cons_of_ne_nil hne
    simp only [Db.eqBatchIdsNp, h1]
    cases idArray (r :: rs) <;> rfl
  rcases idArray_lost hne (fun r hr => h64 _ (hmem r hr)) (fun hk' => hk ((IdsKept.perm h2).1 hk')) with
    ⟨⟨r, hr, s, hs⟩, h3⟩ | ⟨arr, h3, h4, r, hr, n, h5, h6⟩
  · left
    refine ⟨⟨s, by rw [← hs]; exact hmem r hr⟩, ?_⟩
    rw [h3] at hids
    simp only [Db.eqBatchesNp, hids]
  · right
    refine ⟨?_, n, by rw [← h5]; exact hmem r hr, h6⟩
    rw [h3] at hids
    intro b hb r hr
    simp only [Db.eqBatchesNp, hids] at hb
    cases hl : eqLoop maxToks maxSents ((shuf arr).insertionSort fun a b => a.2 ≤ b.2) [] 0 with
    | error e => rw [hl] at hb; cases hb
    | ok bs =>
      rw [hl] at hb
      cases bs with
      | nil => cases hb
      | cons c cs =>
        obtain ⟨g, hg, hb⟩ := genMap_out _ hb
        have hi : r.1 ∈ g := by
          rw [← getAll_ids hb]
          exact List.mem_map.2 ⟨r, hr, rfl⟩
        rcases eqLoop_mem hl g ((hshufB _).mem_iff.1 hg) _ hi with h | ⟨a, ha, e⟩
        · cases h
        · rw [← e]
          exact h4 a ((hshuf _).mem_iff.1 ((List.perm_insertionSort _ _).mem_iff.1 ha))

/-- C105, exactly when it holds: for ids that are texts or numbers of 64 bits, batches containing all records without empty columns
exactly once are made if and only if the array keeps the ids.  Missing from the full statement: it does not hold for other
ids. -/
theorem C105_iff_partial {bufSize : Nat} {ns : List Str} (hns : ns.Nodup) {recs : List (RecId × List (List Int))} {db : Db RecId}
    (h : Db.create bufSize ns recs = .ok db) (h64 : ∀ id ∈ fullIds recs, IdOf64 id) (maxToks : Nat) (maxSents : Option Nat)
    {ord : List RecId → List RecId} (hord : ∀ l, (ord l).Perm l) {shuf : List (RecId × Int) → List (RecId × Int)}
    (hshuf : ∀ l, (shuf l).Perm l) {shufB : List (List RecId) → List (List RecId)} (hshufB : ∀ l, (shufB l).Perm l)
    (hsome : ∃ r ∈ recs, Full r) (hfit : ∀ r ∈ recs, Full r → ¬ Oversized maxToks r) :
    (∃ bs, db.eqBatchesNp maxToks maxSents ord shuf shufB = ⟨bs, none⟩ ∧ (bs.flatten.map (·.1)).Perm (fullIds recs)) ↔
      IdsKept (fullIds recs) := by
  constructor
  · rintro ⟨bs, h1, h2⟩
    by_contra hk
    rcases C105_lost hns h h64 hk maxToks maxSents hord hshuf hshufB with ⟨_, h3⟩ | ⟨h3, n, h4, h5⟩
    · rw [h3] at h1
      cases h1
    · rw [h1] at h3
      obtain ⟨r, hr, e⟩ := List.mem_map.1 (h2.mem_iff.2 h4)
      obtain ⟨b, hb, hr⟩ := List.mem_flatten.1 hr
      obtain ⟨m, e', hf⟩ := h3 b hb r hr
      rw [e'] at e
      cases e
      exact h5 hf
  · intro hk
    obtain ⟨bs, h1, h2, _⟩ := C105_kept_partial hns h hk maxToks maxSents hord hshuf hshufB hsome hfit
    exact ⟨bs, h1, h2⟩

/-- C105 is false for texts: if the id of a record without empty columns is a text, no batch is made and TypeError is raised. -/
theorem C105_text_refuted {bufSize : Nat} {ns : List Str} (hns : ns.Nodup) {recs : List (RecId × List (List Int))} {db : Db RecId}
    (h : Db.create bufSize ns recs = .ok db) (_h64 : ∀ id ∈ fullIds recs, IdOf64 id) {s : Str} (hs : .str s ∈ fullIds recs) (maxToks : Nat) (maxSents : Option Nat)
    {ord : List RecId → List RecId} (hord : ∀ l, (ord l).Perm l) (shuf : List (RecId × Int) → List (RecId × Int))
    (shufB : List (List RecId) → List (List RecId)) : db.eqBatchesNp maxToks maxSents ord shuf shufB = ⟨[], some .type⟩ := by
  obtain ⟨rows, h1, h2⟩ := eqRows_perm hns (dbCreate_ok hns h) hord
  obtain ⟨r, hr, e⟩ := List.mem_map.1 (h2.mem_iff.2 hs)
  have ha : idArray rows = .error .type := by
    have : (rows.any fun r => r.1.isStr) = true := List.any_eq_true.2 ⟨r, hr, by rw [e]; rfl⟩
    simp [idArray, this]
  cases rows with
  | nil => cases hr
  | cons r rows => simp only [Db.eqBatchesNp, Db.eqBatchIdsNp, h1, ha]

/-- the ids in the batches made of the records with the given ids and one column, and the exception -/
def exIds (ids : List RecId) : List (List RecId) × Option Exc :=
  match Db.create 4 [lit "x"] (ids.map fun i => (i, [[7, 8]])) with
  | .ok db => ((db.eqBatchesNp 4 none id id id).out.map (List.map (·.1)), (db.eqBatchesNp 4 none id id id).exc)
  | .error e => ([], some e)

/-- C105 is false for numbers on both sides of 2^63: they become floats.  Of the records 1, 2^63 and 2^63 + 1 the second is
returned twice and the third never; of the records 1 and 2^63 + 1 no batch can be made, because there is no record 2^63. -/
theorem C105_rounded_refuted :
    exIds [.int 1, .int (2 ^ 63), .int (2 ^ 63 + 1)] = ([[.int 1, .int (2 ^ 63)], [.int (2 ^ 63)]], none) ∧
    exIds [.int 1, .int (2 ^ 63 + 1)] = ([], some .key) := by
  decide +kernel

example : exIds [.int (-5), .int (2 ^ 62 + 1), .int 3] = ([[.int (-5), .int (2 ^ 62 + 1)], [.int 3]], none) := by decide +kernel
example : exIds [.int (2 ^ 63), .int (2 ^ 63 + 1)] = ([[.int (2 ^ 63), .int (2 ^ 63 + 1)]], none) := by decide +kernel
example : exIds [.int 1, .int (2 ^ 63 + 2 ^ 11)] = ([[.int 1, .int (2 ^ 63 + 2 ^ 11)]], none) := by decide +kernel
example : exIds [.int 1, .str (lit "doc7")] = ([], some .type) := by decide +kernel

example : IdsKept [.int (-5), .int (2 ^ 62 + 1), .int 3] :=
  .signed fun i hi => by
    simp only [List.mem_cons, List.not_mem_nil, or_false] at hi
    rcases hi with rfl | rfl | rfl <;> exact ⟨_, rfl, by norm_num, by norm_num⟩
example : IdsKept [.int 1, .int (2 ^ 63 + 2 ^ 11)] :=
  .exact fun i hi => by
    simp only [List.mem_cons, List.not_mem_nil, or_false] at hi
    rcases hi with rfl | rfl
    · exact ⟨_, rfl, by norm_num, by norm_num, 1, 0, by norm_num, by norm_num⟩
    · exact ⟨_, rfl, by norm_num, by norm_num, 2 ^ 52 + 1, 11, by norm_num, by norm_num⟩
example : ¬ IdsKept [.int 1, .int (2 ^ 63 + 1)] := by
  rintro (h | h | h)
  · obtain ⟨n, e, _, h2⟩ := h (.int (2 ^ 63 + 1)) (by simp)
    cases e
    omega
  · obtain ⟨n, e, h1, _⟩ := h (.int 1) (by simp)
    cases e
    omega
  · obtain ⟨n, e, _, _, h3⟩ := h (.int (2 ^ 63 + 1)) (by simp)
    cases e
    rw [← roundF64_iff] at h3
    revert h3
    decide +kernel

end Verif
