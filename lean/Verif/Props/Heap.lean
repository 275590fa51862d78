import Verif.Lemmas.BpeHeap
import Verif.Spec.Heap
/-! # Property C26: `MaxHeap` is a priority queue -/

namespace Verif
open Spec

/-- a history of operations on a `MaxHeap` with the results seen by the caller (nlcodec/dstruct.py:118-144); IndexError of
`pop` and `peek` leaves the heap as it is -/
def heapRun : List QOp → List HItem → List QOut
  | [], _ => []
  | .push k v :: ops, h => .done :: heapRun ops (heapPush h k v)
  | .pop :: ops, h => match heapPop h with
    | .error _ => .empty :: heapRun ops h
    | .ok ((k, v), h') => .item k v :: heapRun ops h'
  | .peek :: ops, h => match heapPeek h with
    | .error _ => .empty :: heapRun ops h
    | .ok (k, v) => .item k v :: heapRun ops h
  | .len :: ops, h => .size h.length :: heapRun ops h

/-- the stored form of an entry -/
def stored (x : Entry) : HItem := (-x.2, x.1)

theorem stored_lt (x y : Entry) : HItem.lt (stored y) (stored x) = false ↔ before x y := by
  rw [HItem.lt_iff]; simp only [stored, before, pairLe]; omega

theorem stored_inj {x y : Entry} (h : stored x = stored y) : x = y := by
  obtain ⟨a, b⟩ := x
  obtain ⟨c, d⟩ := y
  simp only [stored, Prod.mk.injEq] at h ⊢
  exact ⟨h.2, by omega⟩

theorem put_perm (x : Entry) (l : List Entry) : (put x l).Perm (x :: l) := by
  induction l with
  | nil => exact List.Perm.refl _
  | cons y l ih =>
    simp only [put]
    split
    · exact List.Perm.refl _
    · exact (List.Perm.cons y ih).trans (List.Perm.swap x y l)

theorem put_sorted (x : Entry) {l : List Entry} (h : l.Pairwise before) : (put x l).Pairwise before := by
  induction l with
  | nil => simp [put]
  | cons y l ih =>
    rw [List.pairwise_cons] at h
    simp only [put]
    split
    · rename_i hxy
      refine List.pairwise_cons.2 ⟨?_, List.pairwise_cons.2 h⟩
      intro z hz
      rcases List.mem_cons.1 hz with rfl | hz
      · exact hxy
      · have := h.1 z hz
        unfold before at *; omega
    · rename_i hxy
      refine List.pairwise_cons.2 ⟨?_, ih h.2⟩
      intro z hz
      rcases List.mem_cons.1 ((put_perm x l).subset hz) with rfl | hz
      · unfold before at *; omega
      · exact h.1 z hz

theorem heapRun_eq (ops : List QOp) : ∀ (h : List HItem) (l : List Entry), Heapq.IsHeap HItem.lt h → h.Perm (l.map stored) →
    l.Pairwise before → heapRun ops h = queueRun ops l := by
  have root : ∀ (h : List HItem) (x : Entry) (l : List Entry), h.Perm ((x :: l).map stored) → (x :: l).Pairwise before →
      ∀ m ∈ h, (∀ y ∈ h, HItem.lt y m = false) → m = stored x := by
    intro h x l hp hs m hm hmin
    obtain ⟨y, hy, rfl⟩ := List.mem_map.1 (hp.subset hm)
    have h1 : HItem.lt (stored x) (stored y) = false := hmin _ (hp.symm.subset (by simp))
    refine (HItem.antisymm h1 ?_)
    rw [stored_lt]
    rcases List.mem_cons.1 hy with rfl | hy
    · unfold before; omega
    · exact (List.pairwise_cons.1 hs).1 y hy
  induction ops with
  | nil => intros; rfl
  | cons op ops ih =>
    intro h l hh hp hs
    cases op with
    | push k v =>
      obtain ⟨h1, h2⟩ := heapPush_spec hh k v
      simp only [heapRun, queueRun]
      rw [ih _ (put (k, v) l) h2 _ (put_sorted _ hs)]
      refine h1.trans ((List.Perm.cons _ hp).trans ?_)
      exact ((put_perm (k, v) l).map stored).symm
    | pop =>
      cases l with
      | nil =>
        have : h = [] := List.Perm.eq_nil (by simpa using hp)
        subst this
        simp only [heapRun, queueRun, heapPop, Heapq.heappop, List.getLast?_nil]
        rw [ih [] [] hh (List.Perm.refl _) hs]
      | cons x l =>
        have hne : h ≠ [] := by rintro rfl; simpa using hp.length_eq
        obtain ⟨m, h', h1, h2, h3, h4, h5⟩ := heapPop_spec hh hne
        have e := root h x l hp hs m h1 h2
        subst e
        simp only [heapRun, h3, queueRun]
        rw [ih h' l h5 (List.Perm.cons_inv (h4.symm.trans hp)) (List.pairwise_cons.1 hs).2]
        simp [stored]
    | peek =>
      cases l with
      | nil =>
        have : h = [] := List.Perm.eq_nil (by simpa using hp)
        subst this
        simp only [heapRun, queueRun, heapPeek, List.getElem?_nil]
        rw [ih [] [] hh (List.Perm.refl _) hs]
      | cons x l =>
        have hne : h ≠ [] := by rintro rfl; simpa using hp.length_eq
        obtain ⟨m, rest, rfl⟩ := List.exists_cons_of_ne_nil hne
        have e := root _ x l hp hs m (by simp) (hh.root HItem.ord rfl)
        subst e
        simp only [heapRun, heapPeek, List.getElem?_cons_zero, queueRun]
        rw [ih _ (x :: l) hh hp hs]
        simp [stored]
    | len =>
      simp only [heapRun, queueRun]
      rw [ih h l hh hp hs, hp.length_eq, List.length_map]

/-- C26: for every initial dictionary and every sequence of operations, a `MaxHeap` gives the results of a queue that is kept
sorted by decreasing value (smaller key first on ties); popping from an empty heap raises. -/
theorem C26_priority_queue (items : Dict Pair Int) (ops : List QOp) :
    heapRun ops (heapInit items) = queueRun ops (items.foldr put []) := by
  obtain ⟨h1, h2⟩ := heapInit_spec items
  have hs : ∀ l : List Entry, (l.foldr put []).Pairwise before ∧ (l.foldr put []).Perm l := by
    intro l
    induction l with
    | nil => simp
    | cons x l ih => exact ⟨put_sorted x ih.1, (put_perm x _).trans (List.Perm.cons x ih.2)⟩
  exact heapRun_eq ops _ _ h2 (h1.trans ((hs items).2.map stored).symm) (hs items).1

/-- C26, the order made explicit: popping everything gives the entries in the order of their values. -/
theorem C26_sorted (l : List Entry) : (l.foldr put []).Pairwise before ∧ (l.foldr put []).Perm l := by
  induction l with
  | nil => simp
  | cons x l ih => exact ⟨put_sorted x ih.1, (put_perm x _).trans (List.Perm.cons x ih.2)⟩

/-- ties, a push in the middle, and one pop too many -/
example : heapRun [.peek, .pop, .push (0, 5) 9, .len, .pop, .pop, .pop, .pop, .pop]
    (heapInit [((3, 1), 4), ((2, 7), 4), ((2, 1), 9), ((0, 0), 1)]) =
    [.item (2, 1) 9, .item (2, 1) 9, .done, .size 4, .item (0, 5) 9, .item (2, 7) 4, .item (3, 1) 4, .item (0, 0) 1, .empty] := by decide
example : heapInit [((3, 1), 4), ((2, 7), 4), ((2, 1), 9), ((0, 0), 1)] =
    [(-9, (2, 1)), (-4, (2, 7)), (-4, (3, 1)), (-1, (0, 0))] := by decide

end Verif
