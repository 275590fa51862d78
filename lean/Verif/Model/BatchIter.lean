import Mathlib.Data.Rat.Floor
import Verif.Model.Multipart
import Verif.Model.Eval
/-!
# `BatchIterable` as a whole

Model of `BatchIterable.__init__`, `__iter__`, `num_items`, `num_batches` (nlcodec/db/batch.py:194-273) and of
`IdExample.val_exists_at` (31-48).  Reading and batching are those of `Verif/Model/Batch.lean` and `Verif/Model/Multipart.lean`.
-/

namespace Verif

variable {κ : Type} [DecidableEq κ]

/-- `batch_size`: a number of tokens, or a pair with a number of sentences (nlcodec/db/batch.py:207-210) -/
inductive BatchSize where
  | toks (n : Nat)
  | both (n sents : Nat)

/-- `max_toks` (nlcodec/db/batch.py:207-210) -/
def BatchSize.maxToks : BatchSize → Nat
  | .toks n => n
  | .both n _ => n

/-- `max_sents` (nlcodec/db/batch.py:207-210); `none` is infinity -/
def BatchSize.maxSents : BatchSize → Option Nat
  | .toks _ => none
  | .both _ s => some s

/-- what is found at `data_path`: nothing, a file (with what `Db.load` makes of it), a directory, or something else -/
inductive AtPath (κ : Type) where
  | nothing
  | file (db : Py (Db κ))
  | dir (d : Dict Str (FileC κ))
  | special

/-- `self.data` (nlcodec/db/batch.py:220-225) -/
inductive Data (κ : Type) where
  | single (db : Db κ)
  | multi (m : MDb κ)

/-- the values of `sort_by` (nlcodec/db/batch.py:215) -/
def eqLenName : Str := lit "eq_len_rand_batch"
/-- see `eqLenName` (nlcodec/db/batch.py:215) -/
def randomName : Str := lit "random"

/-- `BatchIterable.__init__` (nlcodec/db/batch.py:205-227): the data.  `isPath` says that `data_path` is a `Path`; else it is a `str`,
which has no method `is_dir` (222 uses the attribute that was set before the conversion). -/
def BatchIterable.init (isPath : Bool) (a : AtPath κ) (sortBy : Option Str) (keep : Bool) : Py (Data κ) :=
  if ¬ (sortBy = none ∨ sortBy = some eqLenName ∨ sortBy = some randomName) then .error .assertion
  else match a with
    | .nothing => .error .assertion
    | .file (.error e) => .error e
    | .file (.ok db) => .ok (.single db)
    | .dir d => if ¬ isPath then .error .attr
      else match MDb.load keep false (some d) with
        | .error e => .error e
        | .ok m => .ok (.multi m)
    | .special => if ¬ isPath then .error .attr else .error .exception

/-- what is left to chance: the iteration order of the id set of every part, the shuffles of the parts, of the rows of a part and of
the batches of a part (nlcodec/db/core.py:225, 241, 272, 356).  A single file counts as the part with the empty name and number 0. -/
structure Chance (κ : Type) where
  ordI : Nat → List κ → List κ
  ord : Str → List κ → List κ
  shufP : List (Str × Option (Db κ)) → List (Str × Option (Db κ))
  shuf : Str → List (κ × Int) → List (κ × Int)
  shufB : Str → List (List κ) → List (List κ)

/-- iterating over `self.data` (nlcodec/db/batch.py:232); it was loaded without `shuffle` -/
def Data.gen (ch : Chance κ) (dir : Dir κ) : Data κ → Gen (κ × List (List Int))
  | .single db => db.gen (ch.ordI 0) false
  | .multi m => m.iter id ch.ordI dir

/-- `self.data.make_eq_len_ran_batches(max_toks, max_sents)` (nlcodec/db/batch.py:256) -/
def Data.eqBatches (maxToks : Nat) (maxSents : Option Nat) (ch : Chance κ) (dir : Dir κ) : Data κ → Gen (List (κ × List (List Int)))
  | .single db => db.eqBatches maxToks maxSents (ch.ord []) (ch.shuf []) (ch.shufB [])
  | .multi m => m.eqBatches maxToks maxSents ch.shufP ch.ord ch.shuf ch.shufB dir

/-- `BatchIterable.__iter__` (nlcodec/db/batch.py:261-265) -/
def BatchIterable.iter (m : BatchMeta) (sortDec batchFirst : Bool) (size : BatchSize) (sortBy : Option Str) (ch : Chance κ) (dir : Dir κ)
    (data : Data κ) : Gen (Batch × List (IdEx κ)) :=
  if sortBy = some eqLenName then eqLenAll m sortDec batchFirst (data.eqBatches size.maxToks size.maxSents ch dir)
  else readAll m sortDec batchFirst size.maxToks size.maxSents (data.gen ch dir)

/-- `num_items` (nlcodec/db/batch.py:267-269) -/
def Data.len : Data κ → Nat
  | .single db => db.len
  | .multi m => m.len

/-- `num_batches` (nlcodec/db/batch.py:271-273): the quotient is a binary64 number -/
def BatchIterable.numBatches (size : BatchSize) (data : Data κ) : Py Int :=
  if size.maxToks = 0 then .error .zeroDiv else .ok ⌈rnd64 ((data.len : ℚ) / (size.maxToks : ℚ))⌉

/-- the new sequence in `IdExample.val_exists_at` (nlcodec/db/batch.py:35-48); a value that should not be there is only logged.  As in
`bosExists`, the promotion by `np.append` is left out. -/
def valAt (pos : Int) (exist : Bool) (val : Int) (seq : List Int) : Py (List Int) :=
  match (if pos = 0 then seq.head? else seq.getLast?) with
  | none => .error .index
  | some a =>
    if exist then (if a ≠ val then (if pos = 0 then .ok (val :: seq) else .ok (seq ++ [val])) else .ok seq)
    else .ok seq

/-- `IdExample.val_exists_at` (nlcodec/db/batch.py:31-48): the example afterwards -/
def IdEx.valExistsAt (side : Str) (pos : Int) (exist : Bool) (val : Int) (e : IdEx κ) : Py (IdEx κ) :=
  if ¬ (side = lit "x" ∨ side = lit "y") then .error .assertion
  else if ¬ (pos = 0 ∨ pos = -1) then .error .assertion
  else if side = lit "x" then
    match valAt pos exist val e.x with
    | .error err => .error err
    | .ok s => .ok { e with x := s }
  else match e.y with
    | none => .error .type
    | some y => match valAt pos exist val y with
      | .error err => .error err
      | .ok s => .ok { e with y := some s }

end Verif
