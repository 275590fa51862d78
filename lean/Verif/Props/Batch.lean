import Verif.Props.Db
import Verif.Lemmas.Batch
/-!
# Properties of batching (C45 - C52)
-/

namespace Verif

variable {κ : Type} [DecidableEq κ]

/-- no column of the record is empty -/
def Spec.Full (r : κ × List (List Int)) : Prop := ∀ c ∈ r.2, c ≠ []

instance (r : κ × List (List Int)) : Decidable (Spec.Full r) := by unfold Spec.Full; infer_instance

/-- the size of the batch times any of the lengths in it, so in particular the longest, is within the budget -/
def Spec.WithinBudget (maxToks : Nat) (b : List (κ × List (List Int))) : Prop := ∀ r ∈ b, ∀ c ∈ r.2, b.length * c.length ≤ maxToks

/-- some column is longer than a whole batch may be -/
def Spec.Oversized (maxToks : Nat) (r : κ × List (List Int)) : Prop := ∃ c ∈ r.2, maxToks < c.length

open Spec

omit [DecidableEq κ] in
theorem fullRec_iff (r : κ × List (List Int)) : fullRec r = true ↔ Full r := by simp [fullRec, Full]

omit [DecidableEq κ] in
theorem filter_full (recs : List (κ × List (List Int))) : recs.filter fullRec = recs.filter fun r => decide (Full r) := by
  apply List.filter_congr
  intro r _
  rw [Bool.eq_iff_iff, fullRec_iff, decide_eq_true_eq]

omit [DecidableEq κ] in
theorem oversized_iff {maxToks : Nat} {r : κ × List (List Int)} (h : r.2 ≠ []) : (maxToks : Int) < longest r ↔ Oversized maxToks r := by
  constructor
  · intro hl
    obtain ⟨c, h1, h2⟩ := longest_mem h
    exact ⟨c, h1, by omega⟩
  · rintro ⟨c, h1, h2⟩
    have := le_longest h1
    omega

theorem DInv.row_ne {ns : List Str} {recs : List (κ × List (List Int))} {db : Db κ} (hd : DInv ns recs db) {r : κ × List (List Int)}
    (hr : r ∈ recs) : r.2 ≠ [] := by
  intro hn
  have := hd.width r hr
  rw [hn] at this
  exact hd.ne.1 (List.length_eq_zero_iff.1 this.symm)

/-! ## C45 -/

/-- C45: whatever the order of the id set and the two shuffles, if some record has no empty column and none of these is oversized,
batches are made without error; they contain every record without empty columns exactly once; none is empty; each is within the
budget. -/
theorem C45_partition {bufSize : Nat} {ns : List Str} (hns : ns.Nodup) {recs : List (κ × List (List Int))} {db : Db κ}
    (h : Db.create bufSize ns recs = .ok db) (maxToks : Nat) (maxSents : Option Nat) {ord : List κ → List κ} (hord : ∀ l, (ord l).Perm l)
    {shuf : List (κ × Int) → List (κ × Int)} (hshuf : ∀ l, (shuf l).Perm l) {shufB : List (List κ) → List (List κ)}
    (hshufB : ∀ l, (shufB l).Perm l) (hsome : ∃ r ∈ recs, Full r) (hfit : ∀ r ∈ recs, Full r → ¬ Oversized maxToks r) :
    ∃ bs, db.eqBatches maxToks maxSents ord shuf shufB = ⟨bs, none⟩ ∧
      (bs.flatten.map (·.1)).Perm ((recs.filter fun r => decide (Full r)).map (·.1)) ∧
      ∀ b ∈ bs, b ≠ [] ∧ WithinBudget maxToks b ∧ (∀ k, maxSents = some k → b.length ≤ k + 1) ∧ ∀ r ∈ b, db.get r.1 = .ok r := by
  have hd := dbCreate_ok hns h
  have hspec := (eqBatchIds_spec hns hd maxToks maxSents hord hshuf).2 (by
    obtain ⟨r, h1, h2⟩ := hsome
    intro hn
    have : r ∈ recs.filter fullRec := List.mem_filter.2 ⟨h1, (fullRec_iff r).2 h2⟩
    rw [hn] at this
    simp at this)
  rcases hspec with ⟨gs, g1, g2, _, g4, g5, _⟩ | ⟨g1, r, g2, g3⟩
  · have hgs : gs ≠ [] := by
      rintro rfl
      obtain ⟨r, h1, h2⟩ := hsome
      have : r ∈ recs.filter fullRec := List.mem_filter.2 ⟨h1, (fullRec_iff r).2 h2⟩
      rw [← g2.mem_iff] at this
      simp at this
    obtain ⟨gs1, p1, p2⟩ := perm_map_inv (hshufB (gs.map (List.map (·.1))))
    have hmem : ∀ g ∈ gs1, ∀ r ∈ g, r ∈ recs := by
      intro g hg r hr
      have : r ∈ gs.flatten := List.mem_flatten.2 ⟨g, p1.mem_iff.1 hg, hr⟩
      exact (List.mem_filter.1 (g2.mem_iff.1 this)).1
    obtain ⟨bs, b1, b2⟩ := getAll_groups hd hmem
    refine ⟨bs, ?_, ?_, ?_⟩
    · obtain ⟨g, gt, rfl⟩ := List.exists_cons_of_ne_nil hgs
      simp only [Db.eqBatches, g1]
      simp only [List.map_cons] at p2 b1 ⊢
      rw [p2]
      exact b1
    · have e1 : bs.flatten.map (·.1) = gs1.flatten.map (·.1) := by
        have : List.Forall₂ (fun g b => (b : List (κ × List (List Int))).map (·.1) = g.map (·.1)) gs1 bs := by
          refine b2.imp ?_
          intro g b hgb
          clear b1 b2
          induction hgb with
          | nil => rfl
          | cons h1 _ ih => simp [h1.2.1, ih]
        clear b1 b2 hmem p1 p2
        induction this with
        | nil => rfl
        | cons h1 _ ih => simp [h1, ih]
      rw [e1, ← filter_full]
      exact ((p1.flatten).trans g2).map _
    · intro b hb
      obtain ⟨i, hi, rfl⟩ := List.mem_iff_getElem.1 hb
      rw [List.forall₂_iff_get] at b2
      have hgb := b2.2 i (by rw [b2.1]; exact hi) hi
      simp only [List.get_eq_getElem] at hgb
      have hil : i < gs1.length := by rw [b2.1]; exact hi
      obtain ⟨q1, q2, q3⟩ := g5 _ (p1.mem_iff.1 (List.getElem_mem hil))
      have hlen := hgb.length_eq
      refine ⟨?_, ?_, fun k hk => by rw [← hlen]; exact q3 k hk, ?_⟩
      · intro hn
        rw [hn] at hlen
        exact q1 (List.length_eq_zero_iff.1 hlen)
      · intro r hr c hc
        obtain ⟨j, hj, rfl⟩ := List.mem_iff_getElem.1 hr
        rw [List.forall₂_iff_get] at hgb
        obtain ⟨_, _, u3⟩ := hgb.2 j (by rw [hgb.1]; exact hj) hj
        simp only [List.get_eq_getElem] at u3
        have : c.length ∈ (bs[i][j].2).map List.length := List.mem_map.2 ⟨c, hc, rfl⟩
        rw [u3] at this
        obtain ⟨c', k1, k2⟩ := List.mem_map.1 this
        have k3 := le_longest k1
        have k4 := q2 _ (List.getElem_mem (show j < gs1[i].length by rw [hgb.1]; exact hj))
        rw [← hlen, ← k2]
        have k5 : ((gs1[i].length * c'.length : Nat) : Int) ≤ maxToks := by
          push_cast
          exact le_trans (mul_le_mul_of_nonneg_left k3 (by omega)) k4
        exact_mod_cast k5
      · intro r hr
        obtain ⟨j, hj, rfl⟩ := List.mem_iff_getElem.1 hr
        rw [List.forall₂_iff_get] at hgb
        obtain ⟨u1, u2, _⟩ := hgb.2 j (by rw [hgb.1]; exact hj) hj
        simp only [List.get_eq_getElem] at u1 u2
        rw [u2]
        exact u1
  · exfalso
    obtain ⟨k1, k2⟩ := List.mem_filter.1 g2
    exact hfit r k1 ((fullRec_iff r).1 k2) ((oversized_iff (hd.row_ne k1)).1 g3)

/-- C45: before the batches are shuffled the records are in order of increasing length, so batches contain similar lengths, and
a batch was closed only because the next record did not fit: one more record would exceed the budget or the batch had more
than `max_sents` records. -/
theorem C45_sorted_tight {bufSize : Nat} {ns : List Str} (hns : ns.Nodup) {recs : List (κ × List (List Int))} {db : Db κ}
    (h : Db.create bufSize ns recs = .ok db) {maxToks : Nat} {maxSents : Option Nat} {ord : List κ → List κ} (hord : ∀ l, (ord l).Perm l)
    {shuf : List (κ × Int) → List (κ × Int)} (hshuf : ∀ l, (shuf l).Perm l) {ids : List (List κ)}
    (hids : db.eqBatchIds maxToks maxSents ord shuf = .ok ids) :
    ∃ gs : List (List (κ × List (List Int))), ids = gs.map (List.map (·.1)) ∧ (∀ r ∈ gs.flatten, r ∈ recs) ∧
      gs.flatten.Pairwise (fun a b => ∀ c ∈ a.2, ∃ d ∈ b.2, c.length ≤ d.length) ∧
      gs.IsChain fun g g' => ∃ r, g'.head? = some r ∧ ((∃ s ∈ r :: g, ∃ c ∈ s.2, maxToks < (g.length + 1) * c.length) ∨
        ∃ m, maxSents = some m ∧ m < g.length) := by
  have hd := dbCreate_ok hns h
  obtain ⟨s1, s2⟩ := eqBatchIds_spec hns hd maxToks maxSents hord hshuf
  by_cases hn : recs.filter fullRec = []
  · rw [s1 hn] at hids
    cases hids
  · rcases s2 hn with ⟨gs, g1, g2, g3, g4, g5, g6⟩ | ⟨g1, _⟩
    · rw [g1] at hids
      cases hids
      have hmem : ∀ r ∈ gs.flatten, r ∈ recs := fun r hr => (List.mem_filter.1 (g2.mem_iff.1 hr)).1
      refine ⟨gs, rfl, hmem, ?_, ?_⟩
      · refine List.Pairwise.imp_of_mem ?_ g3
        intro a b ha hb hab c hc
        obtain ⟨d, h1, h2⟩ := longest_mem (hd.row_ne (hmem b hb))
        have := le_longest hc
        exact ⟨d, h1, by omega⟩
      · have : ∀ g ∈ gs, ∀ r ∈ g, r ∈ recs := fun g hg r hr => hmem r (List.mem_flatten.2 ⟨g, hg, hr⟩)
        clear g1 g2 g3 g4 g5 s1 s2 hmem
        induction gs with
        | nil => simp
        | cons g gs ih =>
          cases gs with
          | nil => simp
          | cons g' gs =>
            rw [List.isChain_cons_cons] at g6 ⊢
            refine ⟨?_, ih g6.2 fun g hg => this g (by simp [hg])⟩
            obtain ⟨r, k1, k2⟩ := g6.1
            refine ⟨r, k1, ?_⟩
            have hr : r ∈ recs := this g' (by simp) r (List.mem_of_head? k1)
            rcases k2 with ⟨s, k3, k4⟩ | k3
            · left
              have hs : s ∈ recs := by
                rcases List.mem_cons.1 k3 with rfl | k3
                · exact hr
                · exact this g (by simp) s k3
              obtain ⟨c, h1, h2⟩ := longest_mem (hd.row_ne hs)
              refine ⟨s, k3, c, h1, ?_⟩
              rw [← h2] at k4
              exact_mod_cast k4
            · right
              cases maxSents with
              | none => simp [moreThan] at k3
              | some m => exact ⟨m, rfl, by simpa [moreThan] using k3⟩
    · rw [g1] at hids
      cases hids

/-- six records, one of them with an empty column -/
def exBatchRecs : List (Nat × List (List Int)) :=
  [(0, [[1, 2, 3], [4]]), (1, [[5], [6]]), (2, [[], [7]]), (3, [[8, 8], [9]]), (4, [[1], [2, 3]]), (5, [[4, 4, 4], [4, 4, 4]])]

/-- `eqBatches` on these with identity orders -/
def exEq (maxToks : Nat) (maxSents : Option Nat) : Gen (List (Nat × List (List Int))) :=
  match Db.create 4 [lit "x", lit "y"] exBatchRecs with
  | .ok db => db.eqBatches maxToks maxSents id id List.reverse
  | .error e => ⟨[], some e⟩

example : (exEq 6 none).out.map (List.map (·.1)) = [[0, 5], [1, 3, 4]] ∧ (exEq 6 none).exc = none := by decide +kernel
example : (exEq 3 none).out.map (List.map (·.1)) = [[5], [0], [4], [3], [1]] ∧ (exEq 2 none) = ⟨[], some .exception⟩ := by decide +kernel

/-! ## C46 -/

/-- C46 is false for equal-length batching: with `max_sents = 1` batches of two records are made. -/
theorem C46_refuted : ∃ db : Db Nat, Db.create 4 [lit "x"] [(0, [[1]]), (1, [[2]]), (2, [[3]])] = .ok db ∧
    (db.eqBatches 100 (some 1) id id id).out.map List.length = [2, 1] := by
  have h : (match Db.create 4 [lit "x"] [((0 : Nat), [[1]]), (1, [[2]]), (2, [[3]])] with
    | .ok db => (db.eqBatches 100 (some 1) id id id).out.map List.length
    | .error _ => []) = [2, 1] := by decide +kernel
  cases hc : Db.create 4 [lit "x"] [((0 : Nat), [[1]]), (1, [[2]]), (2, [[3]])] with
  | error e => rw [hc] at h; simp at h
  | ok db => rw [hc] at h; exact ⟨db, rfl, h⟩

/-- C46, as far as it holds for equal-length batching: at most `max_sents + 1` records in a batch.
Missing: the bound `max_sents` itself, see `C46_refuted`. -/
theorem C46_eq_len_partial {bufSize : Nat} {ns : List Str} (hns : ns.Nodup) {recs : List (κ × List (List Int))} {db : Db κ}
    (h : Db.create bufSize ns recs = .ok db) (maxToks m : Nat) {ord : List κ → List κ} (hord : ∀ l, (ord l).Perm l)
    {shuf : List (κ × Int) → List (κ × Int)} (hshuf : ∀ l, (shuf l).Perm l) {ids : List (List κ)}
    (hids : db.eqBatchIds maxToks (some m) ord shuf = .ok ids) : ∀ b ∈ ids, b.length ≤ m + 1 := by
  have hd := dbCreate_ok hns h
  obtain ⟨s1, s2⟩ := eqBatchIds_spec hns hd maxToks (some m) hord hshuf
  by_cases hn : recs.filter fullRec = []
  · rw [s1 hn] at hids
    cases hids
  · rcases s2 hn with ⟨gs, g1, _, _, _, g5, _⟩ | ⟨g1, _⟩
    · rw [g1] at hids
      cases hids
      intro b hb
      obtain ⟨g, h1, rfl⟩ := List.mem_map.1 hb
      simpa using (g5 g h1).2.2 m rfl
    · rw [g1] at hids
      cases hids

/-- C46 for sequential batching: at most `max_sents` records in a batch, for `max_sents ≥ 1` and any data (also if reading fails
later). -/
theorem C46_sequential (maxToks m : Nat) (hm : 1 ≤ m) (exc : Option Exc) (es : List (IdEx κ)) :
    ∀ b ∈ (readLoop maxToks (some m) exc es [] 0).out, b.length ≤ m := by
  intro b hb
  exact (readLoop_spec maxToks (some m) (by simp; omega) exc es [] 0 (by simp) (by simp) (Or.inl ⟨rfl, rfl⟩) (by simp)).1 b hb |>.2.2 m rfl

example : ((readLoop 100 (some 2) none ((List.range 5).map fun i => ({ id := i, x := [1], y := some [2] } : IdEx Nat)) [] 0).out.map List.length) = [2, 2, 1] := by
  decide

/-! ## C47 -/

/-- the example made from a record with two columns -/
def toEx (r : κ × List (List Int)) : IdEx κ := { id := r.1, x := r.2.getD 0 [], y := some (r.2.getD 1 []) }

theorem unflatten {α β : Type} {f : α → β} {gs : List (List β)} : ∀ {l : List α}, gs.flatten = l.map f →
    ∃ ls : List (List α), ls.flatten = l ∧ gs = ls.map (List.map f) := by
  induction gs with
  | nil =>
    intro l h
    have : l = [] := by simpa using h.symm
    exact ⟨[], by simp [this], rfl⟩
  | cons g gs ih =>
    intro l h
    rw [List.flatten_cons, eq_comm, List.map_eq_append_iff] at h
    obtain ⟨l1, l2, rfl, h1, h2⟩ := h
    obtain ⟨ls, h3, rfl⟩ := ih h2.symm
    exact ⟨l1 :: ls, by simp [h3], by simp [h1]⟩

omit [DecidableEq κ] in
theorem two_cols {r : κ × List (List Int)} (h : r.2.length = 2) : r.2 = [r.2.getD 0 [], r.2.getD 1 []] := by
  obtain ⟨i, cs⟩ := r
  match cs, h with
  | [a, b], _ => rfl

omit [DecidableEq κ] in
theorem toEx_full {r : κ × List (List Int)} (h : r.2.length = 2) : (toEx r).full = decide (Full r) := by
  rw [Bool.eq_iff_iff, decide_eq_true_eq, Full, two_cols h]
  simp [IdEx.full, toEx]

omit [DecidableEq κ] in
theorem toEx_maxSide {r : κ × List (List Int)} (h : r.2.length = 2) : (∀ c ∈ r.2, c.length ≤ (toEx r).maxSide) ∧ ∃ c ∈ r.2, c.length = (toEx r).maxSide := by
  rw [two_cols h]
  simp only [IdEx.maxSide, IdEx.yLen, toEx, Option.getD_some, List.mem_cons, List.not_mem_nil, or_false, forall_eq_or_imp, forall_eq, exists_eq_or_imp, exists_eq_left]
  omega

/-- what `read_all` does in general -/
theorem readAll_spec {m : BatchMeta} {sortDec bf : Bool} {maxToks : Nat} {maxSents : Option Nat} (h0 : maxSents ≠ some 0)
    {recs : List (κ × List (List Int))} (h2 : ∀ r ∈ recs, r.2.length = 2) {g : Gen (Batch × List (IdEx κ))}
    (h : readAll m sortDec bf maxToks maxSents ⟨recs, none⟩ = g) :
    ∃ gs : List (List (κ × List (List Int))), (∀ r ∈ gs.flatten, r ∈ recs ∧ Full r) ∧
      (∀ g ∈ gs, g ≠ [] ∧ WithinBudget maxToks g ∧ ∀ k, maxSents = some k → g.length ≤ k) ∧
      gs.IsChain (fun g g' => ∃ r, g'.head? = some r ∧ ((∃ s ∈ r :: g, ∃ c ∈ s.2, maxToks < (g.length + 1) * c.length) ∨ ∃ k, maxSents = some k ∧ k ≤ g.length)) ∧
      (∃ k, List.Forall₂ (fun g o => Batch.make m sortDec bf (g.map toEx) = .ok o) (gs.take k) g.out) ∧
      ((g.exc = none ∧ (∀ r ∈ recs, Full r → ¬ Oversized maxToks r) ∧ gs.flatten = recs.filter (fun r => decide (Full r)) ∧
          List.Forall₂ (fun g o => Batch.make m sortDec bf (g.map toEx) = .ok o) gs g.out) ∨
        (g.exc = some .exception ∧ ∃ r ∈ recs, Full r ∧ Oversized maxToks r) ∨
        ∃ b ∈ gs, ∃ e, Batch.make m sortDec bf (b.map toEx) = .error e ∧ g.exc = some e) := by
  have hex : genMap mkExample none recs = ⟨recs.map toEx, none⟩ := by
    apply genMap_ok
    rw [List.forall₂_map_right_iff, List.forall₂_same]
    intro r hr
    obtain ⟨i, cs⟩ := r
    have := h2 _ hr
    match cs, this with
    | [a, b], _ => rfl
  simp only [readAll, hex] at h
  obtain ⟨s1, s2, _, s4, s5⟩ := readLoop_spec maxToks maxSents h0 none (recs.map toEx) [] 0 (by simp) (by simp) (Or.inl ⟨rfl, rfl⟩) (by simp)
  generalize hL : readLoop maxToks maxSents none (recs.map toEx) [] 0 = L at h s1 s2 s4 s5
  have hfil : (recs.map toEx).filter IdEx.full = (recs.filter fun r => decide (Full r)).map toEx := by
    rw [List.filter_map]
    congr 1
    apply List.filter_congr
    intro r hr
    exact toEx_full (h2 r hr)
  simp only [List.nil_append, hfil] at s4 s5
  obtain ⟨rest, hrest⟩ := s5
  obtain ⟨l1, l2, e1, e2, e3⟩ := List.map_eq_append_iff.1 hrest.symm
  obtain ⟨gs, k1, k2⟩ := unflatten e2.symm
  have hmem : ∀ r ∈ gs.flatten, r ∈ recs ∧ Full r := by
    intro r hr
    rw [k1] at hr
    have : r ∈ recs.filter fun r => decide (Full r) := by rw [e1]; simp [hr]
    simpa using List.mem_filter.1 this
  have hmem2 : ∀ g ∈ gs, ∀ r ∈ g, r.2.length = 2 := fun g hg r hr => h2 r (hmem r (List.mem_flatten.2 ⟨g, hg, hr⟩)).1
  have gm := genMap_spec (Batch.make m sortDec bf) L.exc L.out
  rw [h, k2] at gm
  obtain ⟨⟨k, gm1⟩, gm2⟩ := gm
  rw [← List.map_take, List.forall₂_map_left_iff] at gm1
  refine ⟨gs, hmem, ?_, ?_, ⟨k, gm1⟩, ?_⟩
  · intro g hg
    obtain ⟨q1, q2, q3⟩ := s1 (g.map toEx) (by rw [k2]; exact List.mem_map.2 ⟨g, hg, rfl⟩)
    refine ⟨by simpa using q1, ?_, by simpa using q3⟩
    intro r hr c hc
    have a1 := q2 (toEx r) (List.mem_map.2 ⟨r, hr, rfl⟩)
    have a2 := (toEx_maxSide (hmem2 g hg r hr)).1 c hc
    rw [List.length_map] at a1
    exact le_trans (Nat.mul_le_mul_left _ a2) a1
  · rw [k2] at s2
    clear k1 k2 gm1 gm2 hmem s1 s4
    induction gs with
    | nil => simp
    | cons g gs ih =>
      cases gs with
      | nil => simp
      | cons g' gs =>
        simp only [List.map_cons] at s2 ih
        rw [List.isChain_cons_cons] at s2 ⊢
        refine ⟨?_, ih s2.2 fun g hg => hmem2 g (by simp [hg])⟩
        obtain ⟨e, k1, k2⟩ := s2.1
        obtain ⟨r, hr, rfl⟩ : ∃ r, g'.head? = some r ∧ toEx r = e := by
          cases g' with
          | nil => simp at k1
          | cons r g' => exact ⟨r, rfl, by simpa using k1⟩
        have hr2 : r.2.length = 2 := hmem2 g' (by simp) r (List.mem_of_head? hr)
        refine ⟨r, hr, ?_⟩
        rcases k2 with ⟨s, k3, k4⟩ | k3
        · left
          rw [← List.map_cons] at k3
          obtain ⟨s, k5, rfl⟩ := List.mem_map.1 k3
          have hs2 : s.2.length = 2 := by
            rcases List.mem_cons.1 k5 with rfl | k5
            · exact hr2
            · exact hmem2 g (by simp) s k5
          obtain ⟨c, c1, c2⟩ := (toEx_maxSide hs2).2
          refine ⟨s, k5, c, c1, ?_⟩
          beta_reduce at k4
          rw [← c2, List.length_map] at k4
          exact_mod_cast k4
        · right
          cases maxSents with
          | none => simp [lessThan] at k3
          | some k =>
            simp only [lessThan, List.length_map, Bool.not_eq_true', decide_eq_false_iff_not, not_lt] at k3
            exact ⟨k, rfl, k3⟩
  · rcases gm2 with ⟨x1, x2⟩ | ⟨b, hb, e, x1, x2⟩
    · rw [List.forall₂_map_left_iff] at x2
      rcases s4 with ⟨y1, y2, y3⟩ | ⟨⟨e, y1, y2, y3⟩, y4⟩
      · left
        refine ⟨by rw [x1, y2], ?_, ?_, x2⟩
        · rintro r hr hf ⟨c, c1, c2⟩
          have := y1 (toEx r) (List.mem_map.2 ⟨r, hr, rfl⟩) (by rw [toEx_full (h2 r hr)]; simpa using hf)
          have := (toEx_maxSide (h2 r hr)).1 c c1
          omega
        · have := y3 trivial
          rw [← hrest] at this
          have hn : rest = [] := by simpa using this.symm
          rw [hn] at e3
          have : l2 = [] := by simpa using e3
          rw [k1, e1, this, List.append_nil]
      · right; left
        obtain ⟨r, hr, rfl⟩ := List.mem_map.1 y1
        obtain ⟨c, c1, c2⟩ := (toEx_maxSide (h2 r hr)).2
        refine ⟨by rw [x1, y4], r, hr, ?_, c, c1, by omega⟩
        rw [toEx_full (h2 r hr)] at y2
        simpa using y2
    · right; right
      obtain ⟨g', hg', rfl⟩ := List.mem_map.1 hb
      exact ⟨g', hg', e, x1, x2⟩

/-- C47: the batches made from the records `recs` (two columns each) without error are the consecutive groups of the records without
empty columns, in the original order; each group is non-empty, within the budget and has at most `max_sents` records; and a
group ends only because the next record does not fit. -/
theorem C47_sequential {m : BatchMeta} {sortDec bf : Bool} {maxToks : Nat} {maxSents : Option Nat} (h0 : maxSents ≠ some 0)
    {recs : List (κ × List (List Int))} {out : List (Batch × List (IdEx κ))} (h2 : ∀ r ∈ recs, r.2.length = 2)
    (h : readAll m sortDec bf maxToks maxSents ⟨recs, none⟩ = ⟨out, none⟩) :
    ∃ gs : List (List (κ × List (List Int))), gs.flatten = recs.filter (fun r => decide (Full r)) ∧
      (∀ g ∈ gs, g ≠ [] ∧ WithinBudget maxToks g ∧ ∀ k, maxSents = some k → g.length ≤ k) ∧
      gs.IsChain (fun g g' => ∃ r, g'.head? = some r ∧ ((∃ s ∈ r :: g, ∃ c ∈ s.2, maxToks < (g.length + 1) * c.length) ∨ ∃ k, maxSents = some k ∧ k ≤ g.length)) ∧
      List.Forall₂ (fun g o => Batch.make m sortDec bf (g.map fun r => { id := r.1, x := r.2.getD 0 [], y := some (r.2.getD 1 []) }) = .ok o) gs out := by
  obtain ⟨gs, _, g2, g3, _, g5⟩ := readAll_spec h0 h2 h
  rcases g5 with ⟨_, _, g6, g7⟩ | ⟨g6, _⟩ | ⟨_, _, e, _, g6⟩
  · exact ⟨gs, g6, g2, g3, g7⟩
  · cases g6
  · cases g6

/-- the default options -/
def exMeta : BatchMeta := { pad := 0, bos := 99, eos := 2 }

example : ((readAll exMeta false true 6 (some 2) ⟨exBatchRecs, none⟩).out.map fun o => (o.2.map (·.id), o.1.x.seqs)) =
    [([0, 1], [[1, 2, 3, 2], [5, 2, 0, 0]]), ([3, 4], [[8, 8, 2], [1, 2, 0]]), ([5], [[4, 4, 4, 2]])] ∧
    (readAll exMeta false true 6 (some 2) ⟨exBatchRecs, none⟩).exc = none := by decide

/-- with `max_sents = 0` an empty batch is attempted -/
example : readAll exMeta false true 6 (some 0) ⟨exBatchRecs, none⟩ = ⟨[], some .value⟩ := by decide

/-! ## C48 -/

/-- C48 for equal-length batching: an exception is raised, before any batch is yielded, exactly if a record without empty columns
is oversized, provided there are records without empty columns. -/
theorem C48_eq_len_partial {bufSize : Nat} {ns : List Str} (hns : ns.Nodup) {recs : List (κ × List (List Int))} {db : Db κ}
    (h : Db.create bufSize ns recs = .ok db) (maxToks : Nat) (maxSents : Option Nat) {ord : List κ → List κ} (hord : ∀ l, (ord l).Perm l)
    {shuf : List (κ × Int) → List (κ × Int)} (hshuf : ∀ l, (shuf l).Perm l) {shufB : List (List κ) → List (List κ)}
    (hshufB : ∀ l, (shufB l).Perm l) (hsome : ∃ r ∈ recs, Full r) :
    ((∃ r ∈ recs, Full r ∧ Oversized maxToks r) → db.eqBatches maxToks maxSents ord shuf shufB = ⟨[], some .exception⟩) ∧
    ((∀ r ∈ recs, Full r → ¬ Oversized maxToks r) → (db.eqBatches maxToks maxSents ord shuf shufB).exc = none) := by
  constructor
  · rintro ⟨r, h1, h2, h3⟩
    have hd := dbCreate_ok hns h
    have hr : r ∈ recs.filter fullRec := List.mem_filter.2 ⟨h1, (fullRec_iff r).2 h2⟩
    rcases (eqBatchIds_spec hns hd maxToks maxSents hord hshuf).2 (by intro hn; rw [hn] at hr; simp at hr) with ⟨gs, _, _, _, g4, _⟩ | ⟨g1, _⟩
    · have := g4 r hr
      have := (oversized_iff (hd.row_ne h1)).2 h3
      omega
    · simp only [Db.eqBatches, g1]
  · intro hfit
    obtain ⟨bs, h1, _⟩ := C45_partition hns h maxToks maxSents hord hshuf hshufB hsome hfit
    rw [h1]

/-- C48 is false for equal-length batching if every record has an empty column: IndexError, though no record is oversized.
This holds for every such database. -/
theorem C48_eq_len_refuted {bufSize : Nat} {ns : List Str} (hns : ns.Nodup) {recs : List (κ × List (List Int))} {db : Db κ}
    (h : Db.create bufSize ns recs = .ok db) (maxToks : Nat) (maxSents : Option Nat) {ord : List κ → List κ} (hord : ∀ l, (ord l).Perm l)
    {shuf : List (κ × Int) → List (κ × Int)} (hshuf : ∀ l, (shuf l).Perm l) (shufB : List (List κ) → List (List κ)) (hnone : ∀ r ∈ recs, ¬ Full r) :
    db.eqBatches maxToks maxSents ord shuf shufB = ⟨[], some .index⟩ := by
  have hd := dbCreate_ok hns h
  have := (eqBatchIds_spec hns hd maxToks maxSents hord hshuf).1 (by
    rw [filter_full, List.filter_eq_nil_iff]
    simpa using hnone)
  simp only [Db.eqBatches, this]

example : (match Db.create 4 [lit "x", lit "y"] [(7, [[], [1]]), (8, [[2], []])] with
    | .ok db => db.eqBatches 10 none id id id
    | .error _ => ⟨[], none⟩) = ⟨[], some .index⟩ := by decide +kernel

/-- every side of the record can be given the requested markers: a marker that is not requested is not there -/
def Spec.Markable (m : BatchMeta) (r : κ × List (List Int)) : Prop :=
  ∀ c, (r.2[0]? = some c → (m.addBosX = false → c.head? ≠ some m.bos) ∧ (m.addEosX = false → c.getLast? ≠ some m.eos)) ∧
    (r.2[1]? = some c → (m.addBosY = false → c.head? ≠ some m.bos) ∧ (m.addEosY = false → c.getLast? ≠ some m.eos))

theorem checkSeq_succeeds {b e : Bool} {bv ev : Int} {s : List Int} (h1 : s ≠ []) (h2 : b = false → s.head? ≠ some bv)
    (h3 : e = false → s.getLast? ≠ some ev) : ∃ t, checkSeq b e bv ev s = .ok t := ⟨_, (checkSeq_iff b e bv ev s _).2 ⟨h1, h2, h3, rfl⟩⟩

/-- a batch of markable records can be made -/
theorem batch_succeeds {m : BatchMeta} {sortDec bf : Bool} {g : List (κ × List (List Int))} (hne : g ≠ []) (h2 : ∀ r ∈ g, r.2.length = 2)
    (hf : ∀ r ∈ g, Full r) (hm : ∀ r ∈ g, Markable m r) : ∃ o, Batch.make m sortDec bf (g.map toEx) = .ok o := by
  have hx : ∃ es1, checkX m (g.map toEx) = .ok es1 := by
    clear hne
    induction g with
    | nil => exact ⟨[], rfl⟩
    | cons r g ih =>
      obtain ⟨es1, h⟩ := ih (fun r hr => h2 r (by simp [hr])) (fun r hr => hf r (by simp [hr])) fun r hr => hm r (by simp [hr])
      have e := two_cols (h2 r (by simp))
      have q1 : r.2[0]? = some (r.2.getD 0 []) := by rw [e]; simp
      obtain ⟨p1, p2⟩ := (hm r (by simp) _).1 q1
      have hfr := hf r (by simp) (r.2.getD 0 []) (List.mem_of_getElem? q1)
      obtain ⟨t, ht⟩ := checkSeq_succeeds hfr p1 p2
      have ht' : checkSeq m.addBosX m.addEosX m.bos m.eos (toEx r).x = .ok t := ht
      exact ⟨{ toEx r with x := t } :: es1, by simp only [List.map_cons, checkX, ht', h]⟩
  obtain ⟨es1, hx⟩ := hx
  have hx' := checkX_ok hx
  have hlen := hx'.length_eq
  have hy : ∀ l : List (IdEx κ), (∀ e ∈ l, e ∈ es1) → ∃ es3, checkY m l = .ok es3 := by
    intro l
    induction l with
    | nil => intro _; exact ⟨[], rfl⟩
    | cons e l ih =>
      intro hl
      obtain ⟨es3, h3⟩ := ih fun e he => hl e (by simp [he])
      obtain ⟨i, hi, rfl⟩ := List.mem_iff_getElem.1 (hl e (by simp))
      rw [List.forall₂_iff_get] at hx'
      have hig : i < g.length := by rw [List.length_map] at hlen; omega
      obtain ⟨_, _, a3⟩ := hx'.2 i (by rw [hlen]; exact hi) hi
      simp only [List.get_eq_getElem, List.getElem_map] at a3
      have hgm := List.getElem_mem hig
      have e := two_cols (h2 _ hgm)
      have q1 : g[i].2[1]? = some (g[i].2.getD 1 []) := by rw [e]; simp
      obtain ⟨p1, p2⟩ := (hm _ hgm _).2 q1
      have hfr := hf _ hgm (g[i].2.getD 1 []) (List.mem_of_getElem? q1)
      obtain ⟨t, ht⟩ := checkSeq_succeeds hfr p1 p2
      have a3' : es1[i].y = some (g[i].2.getD 1 []) := a3
      exact ⟨{ es1[i] with y := some t } :: es3, by simp only [checkY, a3', ht, h3]⟩
  simp only [Batch.make, hx]
  generalize he2 : (if sortDec = true then es1.insertionSort fun a b => b.x.length ≤ a.x.length else es1) = es2
  have hmem : ∀ e ∈ es2, e ∈ es1 := by
    intro e he
    rw [← he2] at he
    split at he
    · exact (List.mem_insertionSort _).1 he
    · exact he
  have hl2 : es2.length = es1.length := by rw [← he2]; split <;> simp
  have hne2 : es2 ≠ [] := by
    intro hn
    rw [hn] at hl2
    simp only [List.length_map] at hlen
    have : g.length = 0 := by simp only [List.length_nil] at hl2; omega
    exact hne (List.length_eq_zero_iff.1 this)
  obtain ⟨e0, es2, rfl⟩ := List.exists_cons_of_ne_nil hne2
  rw [Side.make_ok (by simp)]
  simp only
  obtain ⟨es3, h3⟩ := hy _ hmem
  have h3' := checkY_ok h3
  cases hy0 : e0.y with
  | none => simp [checkY, hy0] at h3
  | some y0 =>
    simp only [h3]
    have hne3 : ysOf es3 ≠ [] := by
      cases es3 with
      | nil => simp at h3'
      | cons e es3 =>
        rw [List.forall₂_cons] at h3'
        obtain ⟨⟨_, _, _, y1, _, h5, _⟩, _⟩ := h3'
        simp [ysOf, h5]
    rw [Side.make_ok hne3]
    exact ⟨_, rfl⟩

/-- C48 for sequential batching: an oversized record always makes reading fail; without one, and if the requested markers
can be given, it does not fail. -/
theorem C48_sequential (m : BatchMeta) (sortDec bf : Bool) (maxToks : Nat) {maxSents : Option Nat} (h0 : maxSents ≠ some 0)
    {recs : List (κ × List (List Int))} (h2 : ∀ r ∈ recs, r.2.length = 2) :
    ((∃ r ∈ recs, Full r ∧ Oversized maxToks r) → (readAll m sortDec bf maxToks maxSents ⟨recs, none⟩).exc ≠ none) ∧
    ((∀ r ∈ recs, Full r → ¬ Oversized maxToks r ∧ Markable m r) → (readAll m sortDec bf maxToks maxSents ⟨recs, none⟩).exc = none) ∧
    ((∀ r ∈ recs, Full r → Markable m r) → (∃ r ∈ recs, Full r ∧ Oversized maxToks r) →
      (readAll m sortDec bf maxToks maxSents ⟨recs, none⟩).exc = some .exception) := by
  obtain ⟨gs, g1, g2, _, _, g5⟩ := readAll_spec (m := m) (sortDec := sortDec) (bf := bf) (maxToks := maxToks) h0 h2 rfl
  have hmk : (∀ r ∈ recs, Full r → Markable m r) → ∀ b ∈ gs, ∀ e, Batch.make m sortDec bf (b.map toEx) ≠ .error e := by
    intro hmk b hb e he
    have hbm : ∀ r ∈ b, r ∈ recs ∧ Full r := fun r hr => g1 r (List.mem_flatten.2 ⟨b, hb, hr⟩)
    obtain ⟨o, ho⟩ := batch_succeeds (m := m) (sortDec := sortDec) (bf := bf) (g2 b hb).1 (fun r hr => h2 r (hbm r hr).1) (fun r hr => (hbm r hr).2)
      fun r hr => hmk r (hbm r hr).1 (hbm r hr).2
    rw [ho] at he
    cases he
  refine ⟨?_, ?_, ?_⟩
  · rintro ⟨r, k1, k2, k3⟩
    rcases g5 with ⟨_, g6, _⟩ | ⟨g6, _⟩ | ⟨_, _, e, _, g6⟩
    · exact absurd k3 (g6 r k1 k2)
    · rw [g6]; simp
    · rw [g6]; simp
  · intro hall
    rcases g5 with ⟨g6, _⟩ | ⟨_, r, k1, k2, k3⟩ | ⟨b, k1, e, k2, _⟩
    · exact g6
    · exact absurd k3 (hall r k1 k2).1
    · exact absurd k2 (hmk (fun r hr hf => (hall r hr hf).2) b k1 e)
  · rintro hall ⟨r, k1, k2, k3⟩
    rcases g5 with ⟨_, g6, _⟩ | ⟨g6, _⟩ | ⟨b, c1, e, c2, _⟩
    · exact absurd k3 (g6 r k1 k2)
    · exact g6
    · exact absurd c2 (hmk hall b c1 e)

/-- the third record is too long: the batch under construction is not yielded, and the error is raised -/
example : readAll exMeta false true 2 none ⟨[((0 : Nat), [[5], [6]]), (1, [[5], [6]]), (2, [[7, 7, 7], [8]])], none⟩ = ⟨[], some .exception⟩ ∧
    ∀ r ∈ exBatchRecs, Full r → ¬ Oversized 6 r := by
  unfold Oversized exBatchRecs
  decide

omit [DecidableEq κ] in
theorem genMap_exc {α β : Type} (f : α → Py β) (e : Exc) (l : List α) : ∃ e', (genMap f (some e) l).exc = some e' := by
  rcases (genMap_spec f (some e) l).2 with ⟨h, _⟩ | ⟨_, _, e', _, h⟩
  · exact ⟨e, h⟩
  · exact ⟨e', h⟩

omit [DecidableEq κ] in
theorem readLoop_exc (maxToks : Nat) (maxSents : Option Nat) (e : Exc) : ∀ (es batch : List (IdEx κ)) (mx : Nat),
    ∃ e', (readLoop maxToks maxSents (some e) es batch mx).exc = some e' := by
  intro es
  induction es with
  | nil => intro batch mx; exact ⟨e, rfl⟩
  | cons x es ih =>
    intro batch mx
    rw [readLoop]
    split
    · exact ih _ _
    · dsimp only
      split
      · exact ih _ _
      · split
        · exact ⟨_, rfl⟩
        · exact ih _ _

omit [DecidableEq κ] in
/-- C48: an error while the records are read is not lost either: the iteration over the batches raises an error, with both strategies. -/
theorem C48_data_error (m : BatchMeta) (sortDec bf : Bool) (maxToks : Nat) (maxSents : Option Nat) (e : Exc) (recs : List (κ × List (List Int)))
    (batches : List (List (κ × List (List Int)))) :
    (readAll m sortDec bf maxToks maxSents ⟨recs, some e⟩).exc ≠ none ∧ (eqLenAll m sortDec bf ⟨batches, some e⟩).exc ≠ none := by
  constructor
  · obtain ⟨e1, h1⟩ := genMap_exc mkExample e recs
    obtain ⟨e2, h2⟩ := readLoop_exc maxToks maxSents e1 (genMap mkExample (some e) recs).out [] 0
    obtain ⟨e3, h3⟩ := genMap_exc (Batch.make m sortDec bf) e2 (readLoop maxToks maxSents (some e1) (genMap mkExample (some e) recs).out [] 0).out
    simp only [readAll, h1, h2, h3]
    simp
  · obtain ⟨e1, h1⟩ := genMap_exc mkExamples e batches
    obtain ⟨e3, h3⟩ := genMap_exc (Batch.make m sortDec bf) e1 (genMap mkExamples (some e) batches).out
    simp only [eqLenAll, h1, h3]
    simp

/-- the batch of the first two records is yielded before the error -/
example : ((readAll exMeta false true 2 none ⟨[((0 : Nat), [[5], [6]]), (1, [[5], [6]]), (2, [[7], [8]])], some .key⟩).out.map fun o => o.2.map (·.id)) =
      [[0, 1]] ∧
    (readAll exMeta false true 2 none ⟨[((0 : Nat), [[5], [6]]), (1, [[5], [6]]), (2, [[7], [8]])], some .key⟩).exc = some .key := by decide

/-! ## C49 -/

/-- a matrix as a list of rows, with the given entries -/
def Spec.Matrix (rows cols : Nat) (cell : Nat → Nat → Int) (mat : List (List Int)) : Prop :=
  mat.length = rows ∧ ∀ i < rows, ∃ row, mat[i]? = some row ∧ row.length = cols ∧ ∀ j < cols, row[j]? = some (cell i j)

/-- one side of a batch holds the sequences `seqs` -/
structure Spec.Holds (batchFirst : Bool) (pad : Int) (seqs : List (List Int)) (s : Side) : Prop where
  lens : s.lens = seqs.map List.length
  toks : s.toks = seqs.flatten.length
  width : (∀ q ∈ seqs, q.length ≤ s.maxLen) ∧ ∃ q ∈ seqs, q.length = s.maxLen
  cells : if batchFirst then Matrix seqs.length s.maxLen (fun i j => (seqs.getD i []).getD j pad) s.seqs
    else Matrix s.maxLen seqs.length (fun j i => (seqs.getD i []).getD j pad) s.seqs

theorem fillRow_spec {w : Nat} {pad : Int} {s : List Int} (h : s.length ≤ w) : (fillRow w pad s).length = w ∧ ∀ j < w, (fillRow w pad s)[j]? = some (s.getD j pad) := by
  constructor
  · simp [fillRow]; omega
  · intro j hj
    simp only [fillRow, List.drop_replicate, List.getElem?_append, List.getElem?_replicate]
    by_cases hjs : j < s.length
    · rw [if_pos hjs]; simp [hjs]
    · rw [if_neg hjs, if_pos (by omega)]
      rw [List.getD_eq_getElem?_getD, List.getElem?_eq_none (by omega)]
      rfl

theorem side_holds {bf : Bool} {pad : Int} {seqs : List (List Int)} {s : Side} (h : Side.make bf pad seqs = .ok s) : Holds bf pad seqs s := by
  have hne : seqs ≠ [] := by rintro rfl; simp [Side.make] at h
  rw [Side.make_ok hne] at h
  cases h
  obtain ⟨w1, w2⟩ := maxLen_spec (seqs.map List.length)
  have hw : ∀ q ∈ seqs, q.length ≤ maxLen (seqs.map List.length) := fun q hq => w1 _ (List.mem_map.2 ⟨q, hq, rfl⟩)
  refine ⟨rfl, by simp [List.length_flatten], ⟨hw, ?_⟩, ?_⟩
  · obtain ⟨q, h1, h2⟩ := List.mem_map.1 (w2 (by simpa using hne))
    exact ⟨q, h1, h2⟩
  · have hrow : ∀ i (hi : i < seqs.length), ((seqs.map (fillRow (maxLen (seqs.map List.length)) pad))[i]? = some (fillRow (maxLen (seqs.map List.length)) pad seqs[i]) ∧
        seqs.getD i [] = seqs[i]) := by
      intro i hi
      simp [hi]
    cases bf with
    | true =>
      simp only [if_true]
      refine ⟨by simp, ?_⟩
      intro i hi
      obtain ⟨r1, r2⟩ := hrow i hi
      obtain ⟨f1, f2⟩ := fillRow_spec (pad := pad) (hw _ (List.getElem_mem hi))
      exact ⟨_, r1, f1, fun j hj => by beta_reduce; rw [f2 j hj, r2]⟩
    | false =>
      simp only [Bool.false_eq_true, if_false]
      refine ⟨by simp [transposeMat], ?_⟩
      intro j hj
      refine ⟨(seqs.map (fillRow (maxLen (seqs.map List.length)) pad)).map fun r => r.getD j 0,
        by simp only [transposeMat, List.getElem?_map, List.getElem?_range hj, Option.map_some], by simp, ?_⟩
      intro i hi
      obtain ⟨r1, r2⟩ := hrow i hi
      obtain ⟨f1, f2⟩ := fillRow_spec (pad := pad) (hw _ (List.getElem_mem hi))
      beta_reduce
      rw [List.getElem?_map, r1, Option.map_some, List.getD_eq_getElem?_getD, f2 j hj, r2]
      rfl

/-- C49: both sides of a batch hold exactly the sequences of the examples (after markers were added), padded; lengths, token counts and
the common width are right. -/
theorem C49_padding {m : BatchMeta} {sortDec bf : Bool} {es es' : List (IdEx κ)} {b : Batch} (h : Batch.make m sortDec bf es = .ok (b, es')) :
    b.len = es.length ∧ es'.length = es.length ∧ Holds bf m.pad (es'.map (·.x)) b.x ∧
    (b.y = none → ∃ e, es'.head? = some e ∧ e.y = none) ∧ ∀ ys, b.y = some ys → ∃ seqs, es'.map (·.y) = seqs.map some ∧ Holds bf m.pad seqs ys := by
  obtain ⟨_, h2, h3, ⟨es1, h4, h5⟩, h6, h7⟩ := Batch.make_ok h
  have hl : es'.length = es.length := by
    rw [h5, h4.length_eq]
    split <;> simp
  refine ⟨by rw [h2, hl], hl, side_holds h3, h6, ?_⟩
  intro ys hys
  obtain ⟨seqs, k1, k2⟩ := h7 ys hys
  exact ⟨seqs, k1, side_holds k2⟩

example : Batch.make exMeta false false [({ id := 0, x := [7, 8], y := some [9] } : IdEx Nat), { id := 1, x := [5], y := some [2] }] =
    .ok ({ len := 2, x := { lens := [3, 2], toks := 5, maxLen := 3, seqs := [[7, 5], [8, 2], [2, 0]] }, y := some { lens := [2, 1], toks := 3, maxLen := 2, seqs := [[9, 2], [2, 0]] } }, [{ id := 0, x := [7, 8, 2], y := some [9, 2] }, { id := 1, x := [5, 2], y := some [2] }]) := by decide

/-! ## C50 -/

/-- C50: the result of the check, if it succeeds: the sequence, with the begin marker in front if requested and not there yet, and
the end marker behind if requested and not there yet. -/
theorem C50_inserted (b e : Bool) (bv ev : Int) (s t : List Int) (h : checkSeq b e bv ev s = .ok t) :
    t = (if b = true ∧ s.head? ≠ some bv then [bv] else []) ++ s ++ (if e = true ∧ s.getLast? ≠ some ev then [ev] else []) ∧
    (b = true → t.head? = some bv) ∧ (e = true → t.getLast? = some ev) ∧ (b = false → t.head? ≠ some bv) ∧ (e = false → t.getLast? ≠ some ev) := by
  obtain ⟨h1, h2, h3, h4⟩ := (checkSeq_iff b e bv ev s t).1 h
  refine ⟨h4, ?_⟩
  obtain ⟨a, s, rfl⟩ := List.exists_cons_of_ne_nil h1
  obtain ⟨c, hc⟩ : ∃ c, (a :: s).getLast? = some c := ⟨(a :: s).getLast (by simp), List.getLast?_eq_some_getLast _⟩
  have hl : ∀ z, (z :: a :: s).getLast? = (a :: s).getLast? := fun z => List.getLast?_cons_cons
  have hz : ∀ (z : Int) (l : List Int), (z :: (l ++ [ev])).getLast? = some ev := fun z l => by rw [← List.cons_append, List.getLast?_concat]
  have hz2 : ∀ (y z : Int) (l : List Int), (y :: z :: (l ++ [ev])).getLast? = some ev := fun y z l => by rw [← List.cons_append, ← List.cons_append, List.getLast?_concat]
  subst h4
  by_cases hb : b = true <;> by_cases ha : a = bv <;> by_cases he : e = true <;> by_cases hce : c = ev <;>
    simp_all

/-- C50: it is idempotent. -/
theorem C50_idempotent (b e : Bool) (bv ev : Int) (s t : List Int) (h : checkSeq b e bv ev s = .ok t) : checkSeq b e bv ev t = .ok t := by
  obtain ⟨h0, h1, h2, h3, h4⟩ := C50_inserted b e bv ev s t h
  rw [checkSeq_iff]
  refine ⟨?_, h3, h4, ?_⟩
  · rintro rfl
    have hs := ((checkSeq_iff b e bv ev s []).1 h).1
    rw [eq_comm, List.append_eq_nil_iff, List.append_eq_nil_iff] at h0
    exact hs h0.1.2
  · rw [if_neg (by rintro ⟨k1, k2⟩; exact k2 (h1 k1)), if_neg (by rintro ⟨k1, k2⟩; exact k2 (h2 k1))]
    simp

/-- C50: it fails exactly for the empty sequence (IndexError) and for a marker that is there though not requested
(AssertionError). -/
theorem C50_raises (b e : Bool) (bv ev : Int) (s : List Int) (err : Exc) : checkSeq b e bv ev s = .error err ↔
    (s = [] ∧ err = .index) ∨ (s ≠ [] ∧ err = .assertion ∧ ((b = false ∧ s.head? = some bv) ∨ (e = false ∧ s.getLast? = some ev))) :=
  checkSeq_error b e bv ev s err

/-- C50: in a batch, every source and, if there are targets, every target went through the check with the options of its side. -/
theorem C50_batch {m : BatchMeta} {sortDec bf : Bool} {es es' : List (IdEx κ)} {b : Batch} (h : Batch.make m sortDec bf es = .ok (b, es')) :
    ∃ es1 : List (IdEx κ), es1.Perm es' ∧ List.Forall₂ (fun e e1 => e1.id = e.id ∧ checkSeq m.addBosX m.addEosX m.bos m.eos e.x = .ok e1.x ∧
      (b.y ≠ none → ∃ y y1, e.y = some y ∧ e1.y = some y1 ∧ checkSeq m.addBosY m.addEosY m.bos m.eos y = .ok y1)) es es1 := by
  obtain ⟨_, _, _, ⟨es1, h4, h5⟩, _⟩ := Batch.make_ok h
  refine ⟨es1, ?_, ?_⟩
  · rw [h5]
    split
    · exact (List.perm_insertionSort _ _).symm
    · exact List.Perm.refl _
  · refine h4.imp ?_
    rintro e e1 ⟨k1, k2, k3⟩
    refine ⟨k1, k2, ?_⟩
    intro hy
    rwa [if_pos (Option.isSome_iff_ne_none.2 hy)] at k3

example : checkSeq true true 1 2 [5, 6] = .ok [1, 5, 6, 2] ∧ checkSeq true true 1 2 [1, 5, 6] = .ok [1, 5, 6, 2] ∧
    checkSeq false true 1 2 [5, 2] = .ok [5, 2] ∧ checkSeq false true 1 2 [1, 5] = .error .assertion ∧
    checkSeq true true 1 2 [] = .error .index ∧ checkSeq true true 1 2 [1] = .ok [1, 2] := by decide

/-! ## C51 -/

/-- number of cells of a matrix -/
def Spec.cells (mat : List (List Int)) : Nat := mat.flatten.length

theorem matrix_cells {rows cols : Nat} {cell : Nat → Nat → Int} {mat : List (List Int)} (h : Matrix rows cols cell mat) : cells mat = rows * cols := by
  obtain ⟨h1, h2⟩ := h
  have : ∀ r ∈ mat, r.length = cols := by
    intro r hr
    obtain ⟨i, hi, rfl⟩ := List.mem_iff_getElem.1 hr
    obtain ⟨row, k1, k2, _⟩ := h2 i (by omega)
    rw [List.getElem?_eq_getElem hi] at k1
    rw [Option.some.inj k1]
    exact k2
  subst h1
  clear h2
  induction mat with
  | nil => simp [cells]
  | cons r mat ih =>
    have e1 := this r (by simp)
    have e2 := ih fun r hr => this r (by simp [hr])
    simp only [cells, List.flatten_cons, List.length_append, List.length_cons] at e2 ⊢
    rw [e1, e2, Nat.succ_mul, Nat.add_comm]

theorem holds_cells {bf : Bool} {pad : Int} {seqs : List (List Int)} {s : Side} (h : Holds bf pad seqs s) : cells s.seqs = seqs.length * s.maxLen := by
  have := h.cells
  cases bf with
  | true => exact matrix_cells (by simpa using this)
  | false => rw [matrix_cells (by simpa using this), Nat.mul_comm]

theorem checkSeq_length {b e : Bool} {bv ev : Int} {s t : List Int} (h : checkSeq b e bv ev s = .ok t) : t.length ≤ s.length + b.toNat + e.toNat := by
  rw [(C50_inserted b e bv ev s t h).1]
  cases b <;> cases e <;> simp <;> (repeat' split) <;> simp <;> omega

/-- C51, as far as it holds, for one batch made from a group within the budget: the markers are not counted, so the
matrices can have up to one cell per record and marker kind more.
Missing: the bound `max_toks` itself, see `C51_refuted`; it does hold if no markers are requested. -/
theorem C51_batch_partial {m : BatchMeta} {sortDec bf : Bool} {maxToks : Nat} {g : List (κ × List (List Int))} (h2 : ∀ r ∈ g, r.2.length = 2)
    (hbud : WithinBudget maxToks g) {b : Batch} {es' : List (IdEx κ)}
    (h : Batch.make m sortDec bf (g.map fun r => { id := r.1, x := r.2.getD 0 [], y := some (r.2.getD 1 []) }) = .ok (b, es')) :
    b.len = g.length ∧ cells b.x.seqs ≤ maxToks + g.length * (m.addBosX.toNat + m.addEosX.toNat) ∧
    ∀ ys, b.y = some ys → cells ys.seqs ≤ maxToks + g.length * (m.addBosY.toNat + m.addEosY.toNat) := by
  obtain ⟨c1, c2, c3, _, c5⟩ := C49_padding h
  obtain ⟨es1, p1, p2⟩ := C50_batch h
  rw [List.length_map] at c1 c2
  -- the example behind every row
  have hback : ∀ e ∈ es', ∃ r ∈ g, checkSeq m.addBosX m.addEosX m.bos m.eos (r.2.getD 0 []) = .ok e.x ∧
      (b.y ≠ none → ∃ y1, e.y = some y1 ∧ checkSeq m.addBosY m.addEosY m.bos m.eos (r.2.getD 1 []) = .ok y1) := by
    intro e he
    obtain ⟨i, hi, rfl⟩ := List.mem_iff_getElem.1 (p1.mem_iff.2 he)
    rw [List.forall₂_iff_get] at p2
    have hig : i < g.length := by have := p2.1; simp only [List.length_map] at this; omega
    obtain ⟨_, k2, k3⟩ := p2.2 i (by rw [p2.1]; exact hi) hi
    simp only [List.get_eq_getElem, List.getElem_map] at k2 k3
    refine ⟨g[i], List.getElem_mem hig, k2, ?_⟩
    intro hy
    obtain ⟨y, y1, q1, q2, q3⟩ := k3 hy
    cases q1
    exact ⟨y1, q2, q3⟩
  refine ⟨c1, ?_, ?_⟩
  · rw [holds_cells c3, List.length_map, c2]
    obtain ⟨q, q1, q2⟩ := c3.width.2
    obtain ⟨e, he, rfl⟩ := List.mem_map.1 q1
    obtain ⟨r, hr, k1, _⟩ := hback e he
    have k3 := checkSeq_length k1
    have k4 := hbud r hr (r.2.getD 0 []) (by rw [two_cols (h2 r hr)]; simp)
    rw [← q2]
    calc g.length * e.x.length ≤ g.length * ((r.2.getD 0 []).length + (m.addBosX.toNat + m.addEosX.toNat)) := Nat.mul_le_mul_left _ (by omega)
      _ = g.length * (r.2.getD 0 []).length + g.length * (m.addBosX.toNat + m.addEosX.toNat) := Nat.mul_add ..
      _ ≤ _ := by omega
  · intro ys hys
    obtain ⟨seqs, k1, k2⟩ := c5 ys hys
    have hsl : seqs.length = g.length := by
      have := congrArg List.length k1
      simp only [List.length_map] at this
      omega
    rw [holds_cells k2, hsl]
    obtain ⟨q, q1, q2⟩ := k2.width.2
    have : some q ∈ es'.map (·.y) := by rw [k1]; exact List.mem_map.2 ⟨q, q1, rfl⟩
    obtain ⟨e, he, hey⟩ := List.mem_map.1 this
    obtain ⟨r, hr, _, k3⟩ := hback e he
    obtain ⟨y1, k5, k6⟩ := k3 (by rw [hys]; simp)
    rw [hey] at k5
    cases k5
    have k7 := checkSeq_length k6
    have k4 := hbud r hr (r.2.getD 1 []) (by rw [two_cols (h2 r hr)]; simp)
    rw [← q2]
    calc g.length * q.length ≤ g.length * ((r.2.getD 1 []).length + (m.addBosY.toNat + m.addEosY.toNat)) := Nat.mul_le_mul_left _ (by omega)
      _ = g.length * (r.2.getD 1 []).length + g.length * (m.addBosY.toNat + m.addEosY.toNat) := Nat.mul_add ..
      _ ≤ _ := by omega

/-- C51, as far as it holds, for everything yielded by sequential batching, even if it fails later.
Missing: the bound `max_toks` itself, see `C51_refuted`. -/
theorem C51_sequential_partial {m : BatchMeta} {sortDec bf : Bool} {maxToks : Nat} {maxSents : Option Nat} (h0 : maxSents ≠ some 0)
    {recs : List (κ × List (List Int))} (h2 : ∀ r ∈ recs, r.2.length = 2) :
    ∀ o ∈ (readAll m sortDec bf maxToks maxSents ⟨recs, none⟩).out, cells o.1.x.seqs ≤ maxToks + o.1.len * (m.addBosX.toNat + m.addEosX.toNat) ∧
      ∀ ys, o.1.y = some ys → cells ys.seqs ≤ maxToks + o.1.len * (m.addBosY.toNat + m.addEosY.toNat) := by
  obtain ⟨gs, g1, g2, _, ⟨k, g4⟩, _⟩ := readAll_spec (m := m) (sortDec := sortDec) (bf := bf) (maxToks := maxToks) h0 h2 rfl
  intro o ho
  obtain ⟨i, hi, rfl⟩ := List.mem_iff_getElem.1 ho
  rw [List.forall₂_iff_get] at g4
  have hik : i < (gs.take k).length := by rw [g4.1]; exact hi
  have hmk := g4.2 i hik hi
  simp only [List.get_eq_getElem] at hmk
  have hg : (gs.take k)[i] ∈ gs := List.mem_of_mem_take (List.getElem_mem hik)
  obtain ⟨c1, c2, c3⟩ := C51_batch_partial (fun r hr => h2 r (g1 r (List.mem_flatten.2 ⟨_, hg, hr⟩)).1) (g2 _ hg).2.1 hmk
  simp only [List.get_eq_getElem] at c1 c2 c3
  rw [c1]
  exact ⟨c2, c3⟩

theorem mkExamples_ok {b : List (κ × List (List Int))} (h2 : ∀ r ∈ b, r.2.length = 2) : mkExamples b = .ok (b.map toEx) := by
  induction b with
  | nil => rfl
  | cons r b ih =>
    have : mkExample r = .ok (toEx r) := by
      obtain ⟨i, cs⟩ := r
      have := h2 (i, cs) (by simp)
      match cs, this with
      | [x, y], _ => rfl
    simp only [mkExamples, this, ih fun r hr => h2 r (by simp [hr]), List.map_cons]

/-- C51, as far as it holds, for equal-length batching: whatever batches of records within the budget (C45) are turned into
padded batches, even if it fails later.  Missing: the bound `max_toks` itself, see `C51_refuted`. -/
theorem C51_eq_len_partial {m : BatchMeta} {sortDec bf : Bool} {maxToks : Nat} {batches : Gen (List (κ × List (List Int)))}
    (h2 : ∀ b ∈ batches.out, ∀ r ∈ b, r.2.length = 2) (hbud : ∀ b ∈ batches.out, WithinBudget maxToks b) :
    ∀ o ∈ (eqLenAll m sortDec bf batches).out, cells o.1.x.seqs ≤ maxToks + o.1.len * (m.addBosX.toNat + m.addEosX.toNat) ∧
      ∀ ys, o.1.y = some ys → cells ys.seqs ≤ maxToks + o.1.len * (m.addBosY.toNat + m.addEosY.toNat) := by
  have hex : genMap mkExamples batches.exc batches.out = ⟨batches.out.map (List.map toEx), batches.exc⟩ := by
    apply genMap_ok
    rw [List.forall₂_map_right_iff, List.forall₂_same]
    exact fun b hb => mkExamples_ok (h2 b hb)
  intro o ho
  simp only [eqLenAll, hex] at ho
  obtain ⟨⟨k, hk⟩, _⟩ := genMap_spec (Batch.make m sortDec bf) batches.exc (batches.out.map (List.map toEx))
  rw [← List.map_take, List.forall₂_map_left_iff] at hk
  obtain ⟨i, hi, rfl⟩ := List.mem_iff_getElem.1 ho
  rw [List.forall₂_iff_get] at hk
  have hik : i < (batches.out.take k).length := by rw [hk.1]; exact hi
  have hmk := hk.2 i hik hi
  simp only [List.get_eq_getElem] at hmk
  have hg : (batches.out.take k)[i] ∈ batches.out := List.mem_of_mem_take (List.getElem_mem hik)
  obtain ⟨c1, c2, c3⟩ := C51_batch_partial (h2 _ hg) (hbud _ hg) hmk
  simp only [List.get_eq_getElem] at c1 c2 c3
  rw [c1]
  exact ⟨c2, c3⟩

example : ((eqLenAll exMeta true true (exEq 6 none)).out.map fun o => (o.1.len, o.1.x.maxLen, cells o.1.x.seqs)) = [(2, 4, 8), (3, 3, 9)] ∧
    (exEq 6 none).out.map List.length = [2, 3] := by decide +kernel

/-- C51 is false: one record with two source tokens and `max_toks = 2` makes a batch with three cells, because the end marker is added after
the budget was checked. -/
theorem C51_refuted : ((readAll exMeta false true 2 none ⟨[((0 : Nat), [[7, 8], [9]])], none⟩).out.map fun o => cells o.1.x.seqs) = [3] := by decide

/-! ## C52 -/

omit [DecidableEq κ] in
theorem ids_of_forall₂ {l m : List (IdEx κ)} (h : List.Forall₂ (fun e e1 => e1.id = e.id) l m) : m.map (·.id) = l.map (·.id) := by
  induction h with
  | nil => rfl
  | cons h1 _ ih => simp [h1, ih]

/-- C52: with `sort_dec` the rows are ordered by decreasing source length, rows of equal length keep their order, and the two matrices hold
the sources and the targets of the same list of examples. -/
theorem C52_sorted {m : BatchMeta} {bf : Bool} {es es' : List (IdEx κ)} {b : Batch} (h : Batch.make m true bf es = .ok (b, es')) :
    ∃ es1 : List (IdEx κ), es'.Perm es1 ∧ es1.map (·.id) = es.map (·.id) ∧ es'.Pairwise (fun a b => b.x.length ≤ a.x.length) ∧
      (∀ n, es'.filter (fun e => decide (e.x.length = n)) = es1.filter fun e => decide (e.x.length = n)) ∧
      Holds bf m.pad (es'.map (·.x)) b.x ∧ ∀ ys, b.y = some ys → ∃ seqs, es'.map (·.y) = seqs.map some ∧ Holds bf m.pad seqs ys := by
  obtain ⟨_, _, c3, _, c5⟩ := C49_padding h
  obtain ⟨_, _, _, ⟨es1, h4, h5⟩, _⟩ := Batch.make_ok h
  simp only [if_true] at h5
  refine ⟨es1, ?_, ?_, ?_, ?_, c3, c5⟩
  · rw [h5]; exact List.perm_insertionSort _ _
  · exact ids_of_forall₂ (h4.imp fun _ _ h => h.1)
  · rw [h5]
    have := List.pairwise_insertionSort (fun a b : IdEx κ => b.x.length ≤ a.x.length) es1
    exact this
  · intro n
    rw [h5]
    exact insertionSort_stable (fun e : IdEx κ => e.x.length) es1 n

/-- C52: without `sort_dec` the rows are in the order of the examples. -/
theorem C52_unsorted {m : BatchMeta} {bf : Bool} {es es' : List (IdEx κ)} {b : Batch} (h : Batch.make m false bf es = .ok (b, es')) :
    es'.map (·.id) = es.map (·.id) := by
  obtain ⟨_, _, _, ⟨es1, h4, h5⟩, _⟩ := Batch.make_ok h
  simp only [Bool.false_eq_true, if_false] at h5
  subst h5
  exact ids_of_forall₂ (h4.imp fun _ _ h => h.1)

example : (match Batch.make exMeta true true [({ id := 0, x := [7], y := some [9] } : IdEx Nat), { id := 1, x := [5, 2], y := some [8] },
      { id := 2, x := [3, 4, 5], y := some [6] }] with
    | .ok o => (o.2.map (·.id), o.1.x.seqs, o.1.y.map (·.seqs))
    | .error _ => ([], [], none)) = ([2, 0, 1], [[3, 4, 5, 2], [7, 2, 0, 0], [5, 2, 0, 0]], some [[6, 2], [9, 2], [8, 2]]) := by decide

end Verif
