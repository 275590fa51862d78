import Verif.Model.Batch
/-!
# Equal-length batching when record ids are numbers or texts

`Db._make_eq_len_batch_ids` puts ids and lengths into one numpy array (nlcodec/db/core.py:240), which gives all of them one type.
`Db.eqBatchIds` leaves this step out; here it is added.
-/

namespace Verif

/-- a record id, as given to `Db.create(..., has_id=True)` (nlcodec/db/core.py:198-214) or `Writer.__call__`
(nlcodec/db/core.py:379-381).  Only numbers and texts are modelled. -/
inductive RecId where
  | int (n : Int)
  | str (s : Str)
  deriving DecidableEq, Repr

/-- is a text -/
def RecId.isStr : RecId → Bool
  | .int _ => false
  | .str _ => true

/-- the type `np.array` (nlcodec/db/core.py:240) finds for a Python number: `int64` if it fits, `uint64` otherwise.  Numbers of more
than 64 bits, for which it is `object`, are left out.  Not used for texts. -/
def RecId.npTy : RecId → NpTy
  | .int n => if n ≤ NpTy.i64.hi then .i64 else .u64
  | .str _ => .i64

/-- an id as element of a numeric array (nlcodec/db/core.py:240).  A float is represented by the number it is equal to, since
equal numbers are the same key of a dictionary. -/
def RecId.cast (ty : NpTy) : RecId → RecId
  | .int n => .int (ty.cast n)
  | .str s => .str s

/-- `np.array(rows)` (nlcodec/db/core.py:240) followed by the first comparison `_len < 1` (nlcodec/db/core.py:247).  If an id is a
text, so are all elements of the array, and the comparison of a text with a number raises TypeError; the shuffle and sort between
them have no other effect.  Otherwise all elements get the promoted type.  Lengths are unsigned numbers of at most 32 bits
(nlcodec/db/core.py:99); fields with 2^32 or more elements are left out, and lengths below 2^53 are exact in every
type. -/
def idArray (rows : List (RecId × Int)) : Py (List (RecId × Int)) :=
  if rows.any fun r => r.1.isStr then .error .type
  else
    let ty := (rows.map fun r => r.1.npTy).foldl NpTy.promote .u32
    .ok (rows.map fun r => (r.1.cast ty, r.2))

/-- `Db._make_eq_len_batch_ids` (nlcodec/db/core.py:228-263) with the array of nlcodec/db/core.py:240 -/
def Db.eqBatchIdsNp (maxToks : Nat) (maxSents : Option Nat) (ord : List RecId → List RecId)
    (shuf : List (RecId × Int) → List (RecId × Int)) (db : Db RecId) : Py (List (List RecId)) :=
  match db.eqRows (ord db.ids) with
  | .error e => .error e
  | .ok [] => .error .index
  | .ok (r :: rows) => match idArray (r :: rows) with
    | .error e => .error e
    | .ok arr => eqLoop maxToks maxSents ((shuf arr).insertionSort fun a b => a.2 ≤ b.2) [] 0

/-- `Db.make_eq_len_ran_batches` (nlcodec/db/core.py:265-276) with the array of nlcodec/db/core.py:240 -/
def Db.eqBatchesNp (maxToks : Nat) (maxSents : Option Nat) (ord : List RecId → List RecId)
    (shuf : List (RecId × Int) → List (RecId × Int)) (shufB : List (List RecId) → List (List RecId)) (db : Db RecId) :
    Gen (List (RecId × List (List Int))) :=
  match db.eqBatchIdsNp maxToks maxSents ord shuf with
  | .error e => ⟨[], some e⟩
  | .ok [] => ⟨[], some .exception⟩
  | .ok (b :: bs) => genMap db.getAll none (shufB (b :: bs))

end Verif
