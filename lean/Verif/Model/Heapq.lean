import Verif.Py.Basic
/-!
# The binary heap of Python's `heapq`

`nlcodec.dstruct.MaxHeap` (nlcodec/dstruct.py:118-144) stores its entries in a list managed by `heapq` of the standard library.
The functions below follow Lib/heapq.py of CPython (the C version does the same comparisons).  The heap is a list; `lt` is
the `<` of the entries.  Loops carry fuel; out of fuel the result is the empty list, which the theorems exclude.
-/

namespace Verif.Heapq

variable {α : Type} (lt : α → α → Bool)

/-- `_siftdown(heap, startpos, pos)` with `newitem` already read from `heap[pos]`: the loop from `pos` up to `start` -/
def siftdown (new : α) (start : Nat) : Nat → Nat → List α → List α
  | 0, _, _ => []
  | fuel + 1, pos, h =>
    if start < pos then
      match h[(pos - 1) / 2]? with
      | none => []
      | some parent =>
        if lt new parent then siftdown new start fuel ((pos - 1) / 2) (h.set pos parent)
        else h.set pos new
    else h.set pos new

/-- the smaller child of `pos`; the right one on ties (`not heap[childpos] < heap[rightpos]`) -/
def smallChild (h : List α) (pos : Nat) : Nat :=
  match h[2 * pos + 1]?, h[2 * pos + 2]? with
  | some l, some r => if lt l r then 2 * pos + 1 else 2 * pos + 2
  | _, _ => 2 * pos + 1

/-- the loop of `_siftup(heap, pos)`: move the smaller child up until a leaf is reached, then `_siftdown` -/
def siftup (new : α) (start : Nat) : Nat → Nat → List α → List α
  | 0, _, _ => []
  | fuel + 1, pos, h =>
    if 2 * pos + 1 < h.length then
      match h[smallChild lt h pos]? with
      | none => []
      | some c => siftup new start fuel (smallChild lt h pos) (h.set pos c)
    else siftdown lt new start (pos + 1) pos h

/-- `_siftup(heap, pos)` -/
def siftupAt (h : List α) (pos : Nat) : List α :=
  match h[pos]? with
  | none => []
  | some new => siftup lt new pos (h.length + 1) pos h

/-- the loop of `heapify`: positions `i - 1, ..., 0` -/
def heapifyFrom : Nat → List α → List α
  | 0, h => h
  | i + 1, h => heapifyFrom i (siftupAt lt h i)

/-- `heapq.heapify` -/
def heapify (h : List α) : List α := heapifyFrom lt (h.length / 2) h

/-- `heapq.heappush` -/
def heappush (h : List α) (x : α) : List α := siftdown lt x 0 (h.length + 1) h.length (h ++ [x])

/-- `heapq.heappop`: IndexError on an empty heap -/
def heappop (h : List α) : Py (α × List α) :=
  match h.getLast? with
  | none => .error .index
  | some last =>
    match h.dropLast with
    | [] => .ok (last, [])
    | x :: xs => .ok (x, siftupAt lt (last :: xs) 0)

end Verif.Heapq
