import Mathlib.Data.List.Sort
import Verif.Model.Db
/-!
# Batching

Model of `Db._make_eq_len_batch_ids`, `Db.make_eq_len_ran_batches` (nlcodec/db/core.py:228-276) and of
`Batch`, `BatchIterable` (nlcodec/db/batch.py:62-269).  Moving to a device, masks and raw texts are in
`Verif/Model/Raw.lean`.
-/

namespace Verif

variable {κ : Type} [DecidableEq κ]

/-- the result of running a generator: the items yielded, and the exception that ended it, if any -/
structure Gen (α : Type) where
  out : List α
  exc : Option Exc
  deriving DecidableEq, Repr

/-- `for x in items: yield f(x)` when the iteration over the items ends with `exc` (nlcodec/db/batch.py:257-259, 246-253) -/
def genMap {α β : Type} (f : α → Py β) (exc : Option Exc) : List α → Gen β
  | [] => ⟨[], exc⟩
  | a :: as => match f a with
    | .error e => ⟨[], some e⟩
    | .ok b => let g := genMap f exc as; ⟨b :: g.out, g.exc⟩

/-- `max(a, b, ...)` of natural numbers -/
def maxLen (l : List Nat) : Nat := l.foldl max 0

/-- `tuple(field.get_len(_id) for field in fields)` (nlcodec/db/core.py:233) -/
def Db.lens (db : Db κ) (id : κ) : List (Str × SeqField κ) → Py (List Int)
  | [] => .ok []
  | p :: ps => match p.2.getLen id with
    | .error e => .error e
    | .ok n => match db.lens id ps with
      | .error e => .error e
      | .ok ns => .ok (n :: ns)

/-- the loop over the ids (nlcodec/db/core.py:232-237) with `min_len = 1`, the value at the only call; counting the skipped
records is left out -/
def Db.eqRows (db : Db κ) : List κ → Py (List (κ × Int))
  | [] => .ok []
  | i :: is => match db.lens i db.fields with
    | .error e => .error e
    | .ok ls => match db.eqRows is with
      | .error e => .error e
      | .ok rows => if listMin ls < 1 then .ok rows else .ok ((i, listMax ls) :: rows)

/-- `len(batch) > max_sents` (nlcodec/db/core.py:251) -/
def moreThan (n : Nat) : Option Nat → Bool
  | none => false
  | some m => decide (m < n)

/-- the batching loop (nlcodec/db/core.py:243-263).  Lengths are not negative; the check `_len < 1` is unreachable after the
selection of rows and left out.  Machine integer overflow of the product is left out. -/
def eqLoop (maxToks : Nat) (maxSents : Option Nat) : List (κ × Int) → List κ → Int → Py (List (List κ))
  | [], batch, _ => .ok (if batch = [] then [] else [batch])
  | (i, n) :: rows, batch, mx =>
    if decide ((batch.length + 1 : Int) * max mx n > maxToks) || moreThan batch.length maxSents then
      if n > maxToks then .error .exception
      else match eqLoop maxToks maxSents rows [i] (max 0 n) with
        | .error e => .error e
        | .ok bs => .ok (batch :: bs)
    else eqLoop maxToks maxSents rows (batch ++ [i]) (max mx n)

/-- `Db._make_eq_len_batch_ids` (nlcodec/db/core.py:228-263).  `ord` is the iteration order of the set of ids, `shuf` is the
shuffle of the rows.  The order of rows of equal length after `argsort` is unspecified; as `shuf` is arbitrary, a stable sort gives
the same set of results.  Without rows, `rows[:, 1]` raises IndexError.  Ids are assumed to survive `np.array(rows)`; see Model/NpIds
for ids that do not. -/
def Db.eqBatchIds (maxToks : Nat) (maxSents : Option Nat) (ord : List κ → List κ) (shuf : List (κ × Int) → List (κ × Int)) (db : Db κ) :
    Py (List (List κ)) :=
  match db.eqRows (ord db.ids) with
  | .error e => .error e
  | .ok [] => .error .index
  | .ok (r :: rows) => eqLoop maxToks maxSents ((shuf (r :: rows)).insertionSort fun a b => a.2 ≤ b.2) [] 0

/-- `Db.make_eq_len_ran_batches` (nlcodec/db/core.py:265-276).  `shufB` is the shuffle of the batches. -/
def Db.eqBatches (maxToks : Nat) (maxSents : Option Nat) (ord : List κ → List κ) (shuf : List (κ × Int) → List (κ × Int))
    (shufB : List (List κ) → List (List κ)) (db : Db κ) : Gen (List (κ × List (List Int))) :=
  match db.eqBatchIds maxToks maxSents ord shuf with
  | .error e => ⟨[], some e⟩
  | .ok [] => ⟨[], some .exception⟩
  | .ok (b :: bs) => genMap db.getAll none (shufB (b :: bs))

/-- attributes of `IdExample` (nlcodec/db/batch.py:24-29), without the raw texts (see `RawEx`) -/
structure IdEx (κ : Type) where
  id : κ
  x : List Int
  y : Option (List Int)
  deriving DecidableEq, Repr

/-- `BatchMeta` (nlcodec/db/batch.py:62-70) -/
structure BatchMeta where
  pad : Int
  bos : Int
  eos : Int
  addBosX : Bool := false
  addBosY : Bool := false
  addEosX : Bool := true
  addEosY : Bool := true

/-- `Batch.val_exists` with `pos = 0` (nlcodec/db/batch.py:127-140).  Numpy's promotion of the result of `np.append` is left out:
it only changes values beyond 2^53. -/
def bosExists (exist : Bool) (val : Int) : List Int → Py (List Int)
  | [] => .error .index
  | a :: s => if exist then .ok (if a ≠ val then val :: a :: s else a :: s) else if a ≠ val then .ok (a :: s) else .error .assertion

/-- `Batch.val_exists` with `pos = -1` (nlcodec/db/batch.py:127-140) -/
def eosExists (exist : Bool) (val : Int) (s : List Int) : Py (List Int) :=
  match s.getLast? with
  | none => .error .index
  | some a => if exist then .ok (if a ≠ val then s ++ [val] else s) else if a ≠ val then .ok s else .error .assertion

/-- the loop body of `Batch.bos_eos_check` (nlcodec/db/batch.py:152-153) -/
def checkSeq (bos eos : Bool) (bosVal eosVal : Int) (s : List Int) : Py (List Int) :=
  match bosExists bos bosVal s with
  | .error e => .error e
  | .ok s1 => eosExists eos eosVal s1

/-- `bos_eos_check(batch, 'x', ...)` (nlcodec/db/batch.py:142-153) -/
def checkX (m : BatchMeta) : List (IdEx κ) → Py (List (IdEx κ))
  | [] => .ok []
  | e :: es => match checkSeq m.addBosX m.addEosX m.bos m.eos e.x with
    | .error err => .error err
    | .ok x => match checkX m es with
      | .error err => .error err
      | .ok es1 => .ok ({ e with x := x } :: es1)

/-- `bos_eos_check(batch, 'y', ...)` (nlcodec/db/batch.py:142-153).  Subscripting `None` raises TypeError. -/
def checkY (m : BatchMeta) : List (IdEx κ) → Py (List (IdEx κ))
  | [] => .ok []
  | e :: es => match e.y with
    | none => .error .type
    | some y => match checkSeq m.addBosY m.addEosY m.bos m.eos y with
      | .error err => .error err
      | .ok y => match checkY m es with
        | .error err => .error err
        | .ok es1 => .ok ({ e with y := some y } :: es1)

/-- `row[:len(s)] = s` for a row of a filled matrix (nlcodec/db/batch.py:99-102) -/
def fillRow (width : Nat) (pad : Int) (s : List Int) : List Int := s ++ (List.replicate width pad).drop s.length

/-- `np.transpose` of a matrix with `width` columns (nlcodec/db/batch.py:104) -/
def transposeMat (width : Nat) (m : List (List Int)) : List (List Int) := (List.range width).map fun j => m.map fun r => r.getD j 0

/-- one side of a `Batch`: lengths, number of tokens, maximal length, matrix (nlcodec/db/batch.py:95-104, 113-122) -/
structure Side where
  lens : List Nat
  toks : Nat
  maxLen : Nat
  seqs : List (List Int)
  deriving DecidableEq, Repr

/-- building one side of a `Batch` (nlcodec/db/batch.py:95-104, 113-122); `np.max` of no lengths raises ValueError -/
def Side.make (batchFirst : Bool) (pad : Int) (seqs : List (List Int)) : Py Side :=
  match seqs with
  | [] => .error .value
  | s :: ss =>
    let lens := (s :: ss).map List.length
    let w := Verif.maxLen lens
    let mat := (s :: ss).map (fillRow w pad)
    .ok { lens := lens, toks := lens.sum, maxLen := w, seqs := if batchFirst then mat else transposeMat w mat }

/-- attributes of `Batch` (nlcodec/db/batch.py:80-125) -/
structure Batch where
  len : Nat
  x : Side
  y : Option Side
  deriving DecidableEq, Repr

/-- `[e.y for e in batch]` after the check (nlcodec/db/batch.py:113) -/
def ysOf (es : List (IdEx κ)) : List (List Int) := es.filterMap (·.y)

/-- `Batch.__init__` (nlcodec/db/batch.py:80-125): the batch, and the examples as they are afterwards in the order of the rows -/
def Batch.make (m : BatchMeta) (sortDec batchFirst : Bool) (es : List (IdEx κ)) : Py (Batch × List (IdEx κ)) :=
  match checkX m es with
  | .error e => .error e
  | .ok es1 =>
    let es2 := if sortDec then es1.insertionSort fun a b => b.x.length ≤ a.x.length else es1
    match Side.make batchFirst m.pad (es2.map (·.x)) with
    | .error e => .error e
    | .ok xs => match es2 with
      | [] => .error .index
      | e0 :: _ => match e0.y with
        | none => .ok ({ len := es2.length, x := xs, y := none }, es2)
        | some _ => match checkY m es2 with
          | .error e => .error e
          | .ok es3 => match Side.make batchFirst m.pad (ysOf es3) with
            | .error e => .error e
            | .ok ys => .ok ({ len := es3.length, x := xs, y := some ys }, es3)

/-- `IdExample(_id, *cols)` (nlcodec/db/core.py:218, nlcodec/db/batch.py:24): TypeError unless there are two columns -/
def mkExample (r : κ × List (List Int)) : Py (IdEx κ) :=
  match r.2 with
  | [x, y] => .ok { id := r.1, x := x, y := some y }
  | _ => .error .type

/-- `len(ex.y)`; here examples come from a database and have a target (nlcodec/db/batch.py:233) -/
def IdEx.yLen (e : IdEx κ) : Nat := (e.y.getD []).length

/-- `len(batch) < max_sents` (nlcodec/db/batch.py:238) -/
def lessThan (n : Nat) : Option Nat → Bool
  | none => true
  | some m => decide (n < m)

/-- the grouping of `BatchIterable.read_all` (nlcodec/db/batch.py:230-253); `exc` is how the iteration over the data ends.  The
examples of a batch are yielded, `Batch.make` is applied by `readAll`. -/
def readLoop (maxToks : Nat) (maxSents : Option Nat) (exc : Option Exc) : List (IdEx κ) → List (IdEx κ) → Nat → Gen (List (IdEx κ))
  | [], batch, _ => match exc with
    | some e => ⟨[], some e⟩
    | none => ⟨if batch = [] then [] else [batch], none⟩
  | e :: es, batch, mx =>
    if min e.x.length e.yLen = 0 then readLoop maxToks maxSents exc es batch mx
    else
      let n := max e.x.length e.yLen
      if decide ((batch.length + 1) * max mx n ≤ maxToks) && lessThan batch.length maxSents then
        readLoop maxToks maxSents exc es (batch ++ [e]) (max mx n)
      else if n > maxToks then ⟨[], some .exception⟩
      else let g := readLoop maxToks maxSents exc es [e] n; ⟨batch :: g.out, g.exc⟩

/-- `BatchIterable.read_all` (nlcodec/db/batch.py:229-253) on the records `data` -/
def readAll (m : BatchMeta) (sortDec batchFirst : Bool) (maxToks : Nat) (maxSents : Option Nat) (data : Gen (κ × List (List Int))) :
    Gen (Batch × List (IdEx κ)) :=
  let exs := genMap mkExample data.exc data.out
  let g := readLoop maxToks maxSents exs.exc exs.out [] 0
  genMap (Batch.make m sortDec batchFirst) g.exc g.out

/-- `[self[_id] for _id in batch_ids]` with `IdExample` as the record type (nlcodec/db/core.py:275) -/
def mkExamples : List (κ × List (List Int)) → Py (List (IdEx κ))
  | [] => .ok []
  | r :: rs => match mkExample r with
    | .error e => .error e
    | .ok e => match mkExamples rs with
      | .error err => .error err
      | .ok es => .ok (e :: es)

/-- `BatchIterable.make_eq_len_ran_batches` (nlcodec/db/batch.py:255-259) on the batches of records `batches` -/
def eqLenAll (m : BatchMeta) (sortDec batchFirst : Bool) (batches : Gen (List (κ × List (List Int)))) : Gen (Batch × List (IdEx κ)) :=
  let g := genMap mkExamples batches.exc batches.out
  genMap (Batch.make m sortDec batchFirst) g.exc g.out

end Verif
