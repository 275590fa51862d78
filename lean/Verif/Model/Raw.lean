import Verif.Model.Batch
/-!
# The rest of `Batch`: raw texts, masks, devices

Model of the attributes `x_raw` and `y_raw` (nlcodec/db/batch.py:28-29, 105-107, 123-125), of `IdExample.__getitem__` (53-59),
`Batch.to` (158-162), `make_autoreg_mask` (164-173) and `subsequent_mask` (176-189).
-/

namespace Verif

variable {κ : Type}

/-- attributes of `IdExample` (nlcodec/db/batch.py:24-29) with the raw texts, `none` being None -/
structure RawEx (κ : Type) where
  id : κ
  x : List Int
  y : Option (List Int)
  xRaw : Option Str := none
  yRaw : Option Str := none
  deriving DecidableEq, Repr

/-- an example whose raw texts travel with its id: `Batch.__init__` sorts and changes the examples themselves (nlcodec/db/batch.py:90-95) -/
def RawEx.tagged (e : RawEx κ) : IdEx (κ × Option Str × Option Str) := { id := (e.id, e.xRaw, e.yRaw), x := e.x, y := e.y }

/-- see `RawEx.tagged` (nlcodec/db/batch.py:90-95) -/
def RawEx.untagged (e : IdEx (κ × Option Str × Option Str)) : RawEx κ := { id := e.id.1, x := e.x, y := e.y, xRaw := e.id.2.1, yRaw := e.id.2.2 }

/-- a `Batch` with its raw texts (nlcodec/db/batch.py:105-107, 123-125).  `yRaw` is `none` if there is no such attribute. -/
structure RawBatch where
  batch : Batch
  xRaw : Option (List (Option Str))
  yRaw : Option (Option (List (Option Str)))
  deriving DecidableEq, Repr

/-- `[ex.x_raw for ex in batch] if batch[0].x_raw else None` (nlcodec/db/batch.py:105-107, 123-125): a text is true if it is not empty -/
def rawsOf : List (Option Str) → Option (List (Option Str))
  | [] => none
  | none :: _ => none
  | some [] :: _ => none
  | some (c :: s) :: rest => some (some (c :: s) :: rest)

/-- `Batch.__init__` (nlcodec/db/batch.py:80-125) with the raw texts: the batch, and the examples in the order of the rows -/
def Batch.makeRaw (m : BatchMeta) (sortDec batchFirst : Bool) (es : List (RawEx κ)) : Py (RawBatch × List (RawEx κ)) :=
  match Batch.make m sortDec batchFirst (es.map RawEx.tagged) with
  | .error e => .error e
  | .ok (b, es1) =>
    let rows := es1.map RawEx.untagged
    .ok ({ batch := b, xRaw := rawsOf (rows.map (·.xRaw)), yRaw := b.y.map fun _ => rawsOf (rows.map (·.yRaw)) }, rows)

/-- what subscripting an example gives (nlcodec/db/batch.py:53-59) -/
inductive Item (κ : Type) where
  | len (n : Nat)
  | seq (s : Option (List Int))
  | text (s : Option Str)
  | id (i : κ)
  deriving DecidableEq, Repr

/-- `IdExample.__getitem__` (nlcodec/db/batch.py:53-59).  `len(None)` raises TypeError.  Other keys are attributes; the methods and the
attributes common to all objects, which `getattr` also finds, are left out. -/
def RawEx.item (e : RawEx κ) (key : Str) : Py (Item κ) :=
  if key = lit "x_len" then .ok (.len e.x.length)
  else if key = lit "y_len" then
    match e.y with
    | none => .error .type
    | some y => .ok (.len y.length)
  else if key = lit "x" then .ok (.seq (some e.x))
  else if key = lit "y" then .ok (.seq e.y)
  else if key = lit "id" then .ok (.id e.id)
  else if key = lit "x_raw" then .ok (.text e.xRaw)
  else if key = lit "y_raw" then .ok (.text e.yRaw)
  else .error .attr

/-- the objects that methods are called on here: an array of numpy, which has neither `to` nor `unsqueeze` nor `size(...)`, or a tensor of
torch, which has them (nlcodec/db/batch.py:158-189) -/
inductive Lib where
  | numpy | torch
  deriving DecidableEq, Repr

/-- `a.unsqueeze(...)` (nlcodec/db/batch.py:171, 188) of an array or tensor `a`; the result stands for the tensor with one more dimension -/
def unsqueeze {α : Type} (l : Lib) (a : α) : Py α :=
  match l with
  | .numpy => .error .attr
  | .torch => .ok a

/-- `np.triu(ones, k=1) == 0` (nlcodec/db/batch.py:184-187) for a square matrix of ones -/
def lowerMask (size : Nat) : List (List Bool) :=
  let ones : List (List Nat) := List.replicate size (List.replicate size 1)
  let triu := ones.mapIdx fun i r => r.mapIdx fun j v => if i + 1 ≤ j then v else 0
  triu.map fun r => r.map fun v => decide (v = 0)

/-- `subsequent_mask` (nlcodec/db/batch.py:176-189): the matrix is one of numpy; `np.ones` of a negative size raises ValueError -/
def subsequentMask (size : Int) : Py (List (List Bool)) :=
  if size < 0 then .error .value else unsqueeze .numpy (lowerMask size.toNat)

/-- `make_autogres_mask_` (nlcodec/db/batch.py:168-173) for a matrix `seqs` of numpy or of torch; `width` is its number of columns.
What is done with the mask after `subsequent_mask` is for torch, and is never reached: here the conjunction of the two masks. -/
def autoregMask (l : Lib) (seqs : List (List Int)) (width : Nat) (pad : Int) : Py (List (List (List Bool))) :=
  match unsqueeze l (seqs.map fun r => r.map fun v => decide (v ≠ pad)) with
  | .error e => .error e
  | .ok pads => match subsequentMask width with
    | .error e => .error e
    | .ok sub => .ok (pads.map fun p => sub.map fun r => List.zipWith (· && ·) p r)

/-- `Batch.to(device)` (nlcodec/db/batch.py:158-162): the sum of a tuple and a list raises TypeError; else the first attribute, `x_len`, is
asked for `to`; it is an array of numpy (96) -/
def Batch.to (b : Batch) : Py Batch := if b.y = none then .error .type else .error .attr

end Verif
