import Verif.Model.Multipart
/-!
# The record type of a database

`Db.RecType` and `MultipartDb.load` make a named tuple from the names of the fields (nlcodec/db/core.py:169-172, 322).  The models
`Db.get` and `MDb.load` leave this step out; here it is added.
-/

namespace Verif

variable {κ : Type} [DecidableEq κ]

/-- the words for which `keyword.iskeyword` holds; `namedtuple` refuses them (nlcodec/db/core.py:171, 322) -/
def keywords : List Str :=
  ["False", "None", "True", "and", "as", "assert", "async", "await", "break", "class", "continue", "def", "del", "elif", "else", "except",
   "finally", "for", "from", "global", "if", "import", "in", "is", "lambda", "nonlocal", "not", "or", "pass", "raise", "return", "try",
   "while", "with", "yield"].map lit

/-- the second loop of `namedtuple` (nlcodec/db/core.py:171, 322): no name begins with an underscore or occurs twice -/
def seenLoop : List Str → List Str → Py Unit
  | _, [] => .ok ()
  | seen, n :: ns =>
    if n.head? = some 95 then .error .value
    else if n ∈ seen then .error .value
    else seenLoop (n :: seen) ns

/-- `namedtuple('RecType', ['id'] + field_names)` (nlcodec/db/core.py:171, 322): all names have to be identifiers and not keywords;
then `seenLoop`.  `ident` is `str.isidentifier`.  The result is only used to make records, which are modelled as pairs of the id
and the columns. -/
def namedTuple (ident : Str → Bool) (fieldNames : List Str) : Py Unit :=
  if (lit "RecType" :: lit "id" :: fieldNames).any fun n => !ident n || keywords.contains n then .error .value
  else seenLoop [] (lit "id" :: fieldNames)

/-- `Db.RecType` (nlcodec/db/core.py:169-172).  `given`: a record type was passed to `Db.load` (nlcodec/db/core.py:194-195) -/
def Db.recType (ident : Str → Bool) (given : Bool) (db : Db κ) : Py Unit := if given then .ok () else namedTuple ident db.names

/-- `Db.__getitem__` (nlcodec/db/core.py:216-218) -/
def Db.getRec (ident : Str → Bool) (given : Bool) (db : Db κ) (id : κ) : Py (κ × List (List Int)) :=
  match db.cols id db.names with
  | .error e => .error e
  | .ok cs => match db.recType ident given with
    | .error e => .error e
    | .ok () => .ok (id, cs)

/-- `Db.__iter__` (nlcodec/db/core.py:220-226), see `Db.gen` -/
def Db.genRec (ident : Str → Bool) (given : Bool) (ord : List κ → List κ) (shuffle : Bool) (db : Db κ) : Gen (κ × List (List Int)) :=
  if shuffle && decide (2 ≤ db.ids.length) then ⟨[], some .type⟩ else genMap (db.getRec ident given) none (ord db.ids)

/-- `[self[_id] for _id in batch_ids]` (nlcodec/db/core.py:275) -/
def Db.getAllRec (ident : Str → Bool) (given : Bool) (db : Db κ) : List κ → Py (List (κ × List (List Int)))
  | [] => .ok []
  | i :: is => match db.getRec ident given i with
    | .error e => .error e
    | .ok r => match db.getAllRec ident given is with
      | .error e => .error e
      | .ok rs => .ok (r :: rs)

/-- `Db.make_eq_len_ran_batches` (nlcodec/db/core.py:265-276), see `Db.eqBatches` -/
def Db.eqBatchesRec (ident : Str → Bool) (given : Bool) (maxToks : Nat) (maxSents : Option Nat) (ord : List κ → List κ)
    (shuf : List (κ × Int) → List (κ × Int)) (shufB : List (List κ) → List (List κ)) (db : Db κ) : Gen (List (κ × List (List Int))) :=
  match db.eqBatchIds maxToks maxSents ord shuf with
  | .error e => ⟨[], some e⟩
  | .ok [] => ⟨[], some .exception⟩
  | .ok (b :: bs) => genMap (db.getAllRec ident given) none (shufB (b :: bs))

/-- `MultipartDb.load(path, rec_type, keep_in_mem, shuffle)` with `__init__` (nlcodec/db/core.py:307-337).  `given`: `rec_type` is not
None.  The parts are loaded with the record type, so their records are made without another check. -/
def MDb.loadRec (ident : Str → Bool) (given : Bool) (keep shuffle : Bool) (dir : Dir κ) : Py (MDb κ) :=
  match dir with
  | none => .error .assertion
  | some d => match Dict.get? d flagName with
    | none => .error .assertion
    | some (.success parts names) =>
      match if given then .ok () else namedTuple ident names with
      | .error e => .error e
      | .ok () =>
        if parts = [] then .error .assertion
        else
          let keep' := keep || decide (parts.length = 1)
          if keep' then match loadParts dir (Dict.keys parts) with
            | .error e => .error e
            | .ok dbs => .ok ⟨Dict.keys parts, Dict.values parts, names, true, shuffle, dbs.map some⟩
          else .ok ⟨Dict.keys parts, Dict.values parts, names, false, shuffle, parts.map fun _ => none⟩
    | some _ => .error .value

/-- `MultipartDb.create(path, recs, field_names, has_id=True, ...)` (nlcodec/db/core.py:292-305): the directory afterwards, and
the database or the exception -/
def MDb.create (ident : Str → Bool) (env : Env) (overwrite : Bool) (partSize : Int) (maxParts : Nat) (names : List Str)
    (recs : List (κ × List (List Int))) (dir : Dir κ) : Dir κ × Py (MDb κ) :=
  let w := createFx env overwrite partSize maxParts names recs dir
  let d := runFx w.fx dir
  match w.res with
  | .error e => (d, .error e)
  | .ok () => (d, MDb.loadRec ident false false false d)

end Verif
