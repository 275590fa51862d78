import Verif.Model.Raw
import Verif.Props.Batch
/-!
# C124, C125: raw texts and masks
-/

namespace Verif
open Spec

variable {κ : Type} [DecidableEq κ]

/-! ## C124 -/

/-- the texts that a batch lists, given those of the rows: none if the first row has no text or an empty one, else one per row -/
def Spec.Listed (texts : List (Option Str)) (out : Option (List (Option Str))) : Prop :=
  ((∃ c s, texts.head? = some (some (c :: s))) → out = some texts) ∧ (texts.head? = some none ∨ texts.head? = some (some []) → out = none)

theorem rawsOf_listed {texts : List (Option Str)} : Listed texts (rawsOf texts) := by
  constructor
  · rintro ⟨c, s, h⟩
    cases texts with
    | nil => simp at h
    | cons a t => simp only [List.head?_cons, Option.some.injEq] at h; subst h; rfl
  · intro h
    cases texts with
    | nil => simp at h
    | cons a t => simp only [List.head?_cons, Option.some.injEq] at h; rcases h with rfl | rfl <;> rfl

/-- C124: row `i` of the matrices, entry `i` of the source texts and entry `i` of the target texts come from the same example, also after
sorting; every example has one row.  Without targets there is no list of target texts. -/
theorem C124_raw_aligned {m : BatchMeta} {sortDec bf : Bool} {es rows : List (RawEx κ)} {b : RawBatch}
    (h : Batch.makeRaw m sortDec bf es = .ok (b, rows)) :
    (rows.map fun e => (e.id, e.xRaw, e.yRaw)).Perm (es.map fun e => (e.id, e.xRaw, e.yRaw)) ∧
    (sortDec = false → (rows.map fun e => (e.id, e.xRaw, e.yRaw)) = es.map fun e => (e.id, e.xRaw, e.yRaw)) ∧
    (sortDec = true → rows.Pairwise fun a b => b.x.length ≤ a.x.length) ∧
    Holds bf m.pad (rows.map (·.x)) b.batch.x ∧ Listed (rows.map (·.xRaw)) b.xRaw ∧
    (b.batch.y = none → b.yRaw = none) ∧
    ∀ ys, b.batch.y = some ys → (∃ seqs, rows.map (·.y) = seqs.map some ∧ Holds bf m.pad seqs ys) ∧
      ∃ l, b.yRaw = some l ∧ Listed (rows.map (·.yRaw)) l := by
  unfold Batch.makeRaw at h
  split at h
  · exact absurd h (by simp)
  · rename_i b0 es1 hb
    obtain ⟨rfl, rfl⟩ := Prod.mk.inj (Except.ok.inj h)
    obtain ⟨_, _, c3, _, c5⟩ := C49_padding hb
    have hid : ∀ l : List (IdEx (κ × Option Str × Option Str)), (l.map RawEx.untagged).map (fun e => (e.id, e.xRaw, e.yRaw)) = l.map (·.id) := by
      intro l; rw [List.map_map]; rfl
    have hes : (es.map RawEx.tagged).map (·.id) = es.map fun e => (e.id, e.xRaw, e.yRaw) := by rw [List.map_map]; rfl
    rw [hid, ← hes]
    refine ⟨?_, ?_, ?_, ?_, rawsOf_listed, ?_, ?_⟩
    · obtain ⟨es2, k1, k2⟩ := C50_batch hb
      rw [← ids_of_forall₂ (k2.imp fun _ _ h => h.1)]
      exact (k1.map _).symm
    · rintro rfl
      exact C52_unsorted hb
    · rintro rfl
      obtain ⟨_, _, _, k, _⟩ := C52_sorted hb
      exact List.pairwise_map.2 k
    · rw [List.map_map]; exact c3
    · intro hy
      have hy' : b0.y = none := hy
      simp only [hy', Option.map_none]
    · intro ys hys
      have hys' : b0.y = some ys := hys
      refine ⟨?_, ?_⟩
      · obtain ⟨seqs, k1, k2⟩ := c5 ys hys
        refine ⟨seqs, ?_, k2⟩
        rw [List.map_map]; exact k1
      · exact ⟨_, by simp only [hys', Option.map_some], rawsOf_listed⟩

/-- sorted by source length, the texts move with their examples; the targets have no texts -/
example : (match Batch.makeRaw exMeta true true [({ id := 0, x := [7], y := some [9], xRaw := some (lit "p") } : RawEx Nat),
      { id := 1, x := [5, 6], y := some [8], xRaw := some (lit "q r") }] with
    | .ok o => (o.1.xRaw, o.1.yRaw, o.1.batch.x.seqs)
    | .error _ => (none, none, [])) = (some [some (lit "q r"), some (lit "p")], some none, [[5, 6, 2], [7, 2, 0]]) := by decide +kernel

/-- C124, what decides whether texts are listed at all is the first row alone: with `sort_dec` the same examples list them or not,
depending on the lengths of the sequences. -/
theorem C124_first_row : ∃ (e1 e2 : RawEx Nat) (b b' : RawBatch), e1.xRaw = some (lit "p") ∧ e2.xRaw = none ∧
    Batch.makeRaw exMeta false true [e1, e2] = .ok (b, [{ e1 with x := e1.x ++ [2] }, { e2 with x := e2.x ++ [2] }]) ∧
    b.xRaw = some [some (lit "p"), none] ∧
    Batch.makeRaw exMeta true true [e1, e2] = .ok (b', [{ e2 with x := e2.x ++ [2] }, { e1 with x := e1.x ++ [2] }]) ∧ b'.xRaw = none :=
  ⟨{ id := 0, x := [7], y := none, xRaw := some (lit "p") }, { id := 1, x := [5, 6], y := none },
    ⟨⟨2, ⟨[2, 3], 5, 3, [[7, 2, 0], [5, 6, 2]]⟩, none⟩, some [some (lit "p"), none], none⟩,
    ⟨⟨2, ⟨[3, 2], 5, 3, [[5, 6, 2], [7, 2, 0]]⟩, none⟩, none, none⟩, by decide +kernel⟩

omit [DecidableEq κ] in
/-- C124: subscripting an example by the names of its attributes, and by the lengths of its sides; a missing target has no length. -/
theorem C124_items (e : RawEx κ) :
    e.item (lit "x") = .ok (.seq (some e.x)) ∧ e.item (lit "y") = .ok (.seq e.y) ∧ e.item (lit "id") = .ok (.id e.id) ∧
    e.item (lit "x_raw") = .ok (.text e.xRaw) ∧ e.item (lit "y_raw") = .ok (.text e.yRaw) ∧
    e.item (lit "x_len") = .ok (.len e.x.length) ∧ (∀ y, e.y = some y → e.item (lit "y_len") = .ok (.len y.length)) ∧
    (e.y = none → e.item (lit "y_len") = .error .type) ∧
    ∀ key, key ∉ [lit "x", lit "y", lit "id", lit "x_raw", lit "y_raw", lit "x_len", lit "y_len"] → e.item key = .error .attr := by
  refine ⟨rfl, rfl, rfl, rfl, rfl, rfl, ?_, ?_, ?_⟩
  · intro y hy
    have : e.item (lit "y_len") = match e.y with
      | none => .error .type
      | some y => .ok (.len y.length) := rfl
    rw [this, hy]
  · intro hy
    have : e.item (lit "y_len") = match e.y with
      | none => .error .type
      | some y => .ok (.len y.length) := rfl
    rw [this, hy]
  · intro key hk
    simp only [List.mem_cons, List.not_mem_nil, or_false, not_or] at hk
    obtain ⟨h1, h2, h3, h4, h5, h6, h7⟩ := hk
    rw [RawEx.item, if_neg h6, if_neg h7, if_neg h1, if_neg h2, if_neg h3, if_neg h4, if_neg h5]

example : (({ id := 3, x := [7, 8], y := none } : RawEx Nat).item (lit "x_len"), ({ id := 3, x := [7, 8], y := none } : RawEx Nat).item (lit "y_len")) =
    (.ok (.len 2), .error .type) := by decide +kernel

/-! ## C125 -/

/-- C125, the matrix that `subsequent_mask` computes before its last step: a square in which position `j` is open to position `i` exactly if
it does not come later.  Missing: the function never returns it, see `C125_refuted`. -/
theorem C125_matrix_partial (size : Nat) : (lowerMask size).length = size ∧ (∀ r ∈ lowerMask size, r.length = size) ∧
    ∀ i j, i < size → j < size → ((lowerMask size)[i]?.bind (·[j]?)) = some (decide (j ≤ i)) := by
  refine ⟨by simp [lowerMask], ?_, ?_⟩
  · intro r hr
    simp only [lowerMask, List.mem_map, List.mem_mapIdx] at hr
    obtain ⟨_, ⟨i, hi, rfl⟩, rfl⟩ := hr
    simp at hi ⊢
  · intro i j hi hj
    simp [lowerMask, hi, hj]
    by_cases h : j ≤ i
    · simp [h, Nat.lt_succ_of_le h]
    · simp [h, Nat.succ_le_of_lt (Nat.lt_of_not_le h)]

example : lowerMask 3 = [[true, false, false], [true, true, false], [true, true, true]] := by decide +kernel

/-- C125 is false: `subsequent_mask` raises for every size, so no mask for autoregressive generation can be made, neither from the matrices
of a batch nor from tensors; and no batch can be moved to a device. -/
theorem C125_refuted : (∀ size mask, subsequentMask size ≠ .ok mask) ∧ (∀ l seqs width pad masks, autoregMask l seqs width pad ≠ .ok masks) ∧
    ∀ b b' : Batch, b.to ≠ .ok b' := by
  have hs : ∀ size mask, subsequentMask size ≠ .ok mask := by
    intro size mask h
    unfold subsequentMask at h
    split at h <;> cases h
  refine ⟨hs, ?_, ?_⟩
  · intro l seqs width pad masks h
    unfold autoregMask at h
    split at h
    · cases h
    · split at h
      · cases h
      · rename_i sub hsub
        exact hs _ _ hsub
  · intro b b' h
    unfold Batch.to at h
    split at h <;> cases h

example : autoregMask .torch [[5, 6, 0]] 3 0 = .error .attr ∧ subsequentMask 3 = .error .attr := by decide +kernel

/-- C125, the exceptions: `subsequent_mask` is AttributeError, or ValueError for a negative size; the mask of a batch is AttributeError, and so is
moving a batch with targets; moving one without targets is TypeError. -/
theorem C125_exceptions : (∀ size, subsequentMask size = .error (if size < 0 then .value else .attr)) ∧
    (∀ l seqs width pad, autoregMask l seqs width pad = .error .attr) ∧
    ∀ b : Batch, b.to = .error (if b.y = none then .type else .attr) := by
  have hs : ∀ size, subsequentMask size = .error (if size < 0 then .value else .attr) := by
    intro size
    unfold subsequentMask
    split <;> rfl
  refine ⟨hs, ?_, ?_⟩
  · intro l seqs width pad
    cases l
    · rfl
    · simp only [autoregMask, unsqueeze, hs]
      rfl
  · intro b
    unfold Batch.to
    split <;> rfl

end Verif
