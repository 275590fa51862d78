import Verif.Model.Np
/-!
# The sequence database

Model of `SeqField.Builder`, `SeqField` and `Db` (nlcodec/db/core.py:59-226).  Sequences are lists of integers; record ids
are of an arbitrary type.  Numpy arrays are lists with a type; the check that elements are integers (nlcodec/db/core.py:80) is
left out because sequences are integers here.
-/

namespace Verif

variable {κ : Type} [DecidableEq κ]

/-- attributes of `SeqField.Builder` (nlcodec/db/core.py:69-77) except `name` and `buf_size` -/
structure Builder (κ : Type) where
  ids : Dict κ Nat
  ty : NpTy
  frozen : List Int
  buffer : List Int
  refs : List (Nat × Nat)
  maxLen : Nat

/-- `Builder.__init__` (nlcodec/db/core.py:69-77) -/
def Builder.new : Builder κ := { ids := [], ty := .i8, frozen := [], buffer := [], refs := [], maxLen := 0 }

/-- `min(buffer)` of a non-empty list (nlcodec/db/core.py:91) -/
def listMin : List Int → Int
  | [] => 0
  | x :: xs => xs.foldl min x

/-- `max(buffer)` of a non-empty list (nlcodec/db/core.py:91) -/
def listMax : List Int → Int
  | [] => 0
  | x :: xs => xs.foldl max x

/-- `Builder.shrink` (nlcodec/db/core.py:89-94) -/
def Builder.shrink (b : Builder κ) : Py (Builder κ) :=
  if b.buffer = [] then .ok b
  else match bestDtype (listMin b.buffer) (listMax b.buffer) with
    | .error e => .error e
    | .ok t =>
      let data := b.buffer.map t.cast
      .ok { b with ty := b.ty.promote t, frozen := (b.frozen ++ data).map (b.ty.promote t).cast, buffer := [] }

/-- `Builder.append(id, arr)` (nlcodec/db/core.py:79-87).  `bufSize` is the flush threshold `self.buf_size`, rounded up: the
default `100_000_000 / 36` is not an integer, and `n >= x` holds for the integer `n` exactly when it holds for `x` rounded up. -/
def Builder.append (bufSize : Nat) (b : Builder κ) (id : κ) (arr : List Int) : Py (Builder κ) :=
  let b1 := { b with ids := Dict.set b.ids id b.refs.length, maxLen := max arr.length b.maxLen,
                     refs := b.refs ++ [(b.frozen.length + b.buffer.length, arr.length)], buffer := b.buffer ++ arr }
  if bufSize ≤ b1.buffer.length then b1.shrink else .ok b1

/-- attributes of `SeqField` (nlcodec/db/core.py:103-108); `refs` are elements of type `refsTy` -/
structure SeqField (κ : Type) where
  name : Str
  ids : Dict κ Nat
  refsTy : NpTy
  refs : List (Int × Int)
  ty : NpTy
  data : List Int

/-- `SeqField.__init__` (nlcodec/db/core.py:103-110).  Without records the shape of `refs` is `(0,)`, not `(0, 2)`. -/
def SeqField.make (name : Str) (ids : Dict κ Nat) (refsTy : NpTy) (refs : List (Int × Int)) (ty : NpTy) (data : List Int) :
    Py (SeqField κ) :=
  match refs.getLast? with
  | none => .error .assertion
  | some r =>
    if refs.length ≠ ids.length then .error .assertion
    else if ¬ r.1 ≤ data.length then .error .assertion
    else .ok { name := name, ids := ids, refsTy := refsTy, refs := refs, ty := ty, data := data }

/-- `Builder.build` (nlcodec/db/core.py:96-101) -/
def Builder.build (name : Str) (b : Builder κ) : Py (SeqField κ) :=
  match b.shrink with
  | .error e => .error e
  | .ok b1 => match bestDtype 0 (max b1.frozen.length b1.maxLen : Nat) with
    | .error e => .error e
    | .ok rt => SeqField.make name b1.ids rt (b1.refs.map fun r => (rt.cast r.1, rt.cast r.2)) b1.ty b1.frozen

/-- `self.data[start: start + length]` with scalars of type `refsTy` (nlcodec/db/core.py:116-117) -/
def SeqField.slice (f : SeqField κ) (r : Int × Int) : List Int :=
  (f.data.take (f.refsTy.cast (r.1 + r.2)).toNat).drop r.1.toNat

/-- `self.refs[self.ids[item]]` (nlcodec/db/core.py:116, 120) -/
def SeqField.ref (f : SeqField κ) (id : κ) : Py (Int × Int) :=
  match Dict.get? f.ids id with
  | none => .error .key
  | some i => match f.refs[i]? with
    | none => .error .index
    | some r => .ok r

/-- `SeqField.__getitem__` (nlcodec/db/core.py:115-117) -/
def SeqField.get (f : SeqField κ) (id : κ) : Py (List Int) :=
  match f.ref id with
  | .error e => .error e
  | .ok r => .ok (f.slice r)

/-- `SeqField.get_len` (nlcodec/db/core.py:119-120) -/
def SeqField.getLen (f : SeqField κ) (id : κ) : Py Int :=
  match f.ref id with
  | .error e => .error e
  | .ok r => .ok r.2

/-- `SeqField.values` (nlcodec/db/core.py:125-127) -/
def SeqField.values (f : SeqField κ) : List (List Int) := f.refs.map f.slice

/-- append all records to a builder (nlcodec/db/core.py:140-141) -/
def Builder.appendAll (bufSize : Nat) : Builder κ → List (κ × List Int) → Py (Builder κ)
  | b, [] => .ok b
  | b, (id, arr) :: rest => match b.append bufSize id arr with
    | .error e => .error e
    | .ok b1 => Builder.appendAll bufSize b1 rest

/-- `SeqField.create(name, recs)` (nlcodec/db/core.py:137-142), for any buffer size -/
def SeqField.create (bufSize : Nat) (name : Str) (recs : List (κ × List Int)) : Py (SeqField κ) :=
  match Builder.new.appendAll bufSize recs with
  | .error e => .error e
  | .ok b => b.build name

/-- `for b, col in zip(builders, rec): b.append(id, col)` (nlcodec/db/core.py:149-150) -/
def appendRow (bufSize : Nat) (id : κ) : List (Builder κ) → List (List Int) → Py (List (Builder κ))
  | b :: bs, c :: cs => match b.append bufSize id c with
    | .error e => .error e
    | .ok b1 => match appendRow bufSize id bs cs with
      | .error e => .error e
      | .ok bs1 => .ok (b1 :: bs1)
  | bs, _ => .ok bs

/-- the loop of `SeqField.create_many` (nlcodec/db/core.py:147-150) -/
def appendRows (bufSize : Nat) : List (Builder κ) → List (κ × List (List Int)) → Py (List (Builder κ))
  | bs, [] => .ok bs
  | bs, (id, rec) :: rest =>
    if rec.length ≠ bs.length then .error .assertion
    else match appendRow bufSize id bs rec with
      | .error e => .error e
      | .ok bs1 => appendRows bufSize bs1 rest

/-- `[b.build() for b in builders]` (nlcodec/db/core.py:151) -/
def buildAll : List Str → List (Builder κ) → Py (List (SeqField κ))
  | n :: ns, b :: bs => match b.build n with
    | .error e => .error e
    | .ok f => match buildAll ns bs with
      | .error e => .error e
      | .ok fs => .ok (f :: fs)
  | _, _ => .ok []

/-- `SeqField.create_many(names, recs)` (nlcodec/db/core.py:144-151) -/
def createMany (bufSize : Nat) (names : List Str) (recs : List (κ × List (List Int))) : Py (List (SeqField κ)) :=
  match appendRows bufSize (names.map fun _ => Builder.new) recs with
  | .error e => .error e
  | .ok bs => buildAll names bs

/-- attributes of `Db` (nlcodec/db/core.py:156-166).  The set `self.ids` is a list without repetition; the order of iteration
over it is a parameter of the functions that iterate. -/
structure Db (κ : Type) where
  names : List Str
  fields : Dict Str (SeqField κ)
  len : Nat
  ids : List κ

/-- equality of two sets of ids (nlcodec/db/core.py:166) -/
def sameIds (a b : List κ) : Bool := a.all (fun x => decide (x ∈ b)) && b.all (fun x => decide (x ∈ a))

/-- `Db.__init__` (nlcodec/db/core.py:156-166) -/
def Db.make (fields : List (SeqField κ)) : Py (Db κ) :=
  match fields with
  | [] => .error .index
  | f0 :: _ =>
    let d : Dict Str (SeqField κ) := fields.foldl (fun d f => Dict.set d f.name f) []
    if d.all fun p => decide (f0.ids.length = p.2.ids.length) && sameIds (Dict.keys f0.ids) (Dict.keys p.2.ids) then
      .ok { names := fields.map (·.name), fields := d, len := f0.ids.length, ids := Dict.keys f0.ids }
    else .error .assertion

/-- `Db.create(recs, field_names, has_id=True)` (nlcodec/db/core.py:198-214), not saved -/
def Db.create (bufSize : Nat) (names : List Str) (recs : List (κ × List (List Int))) : Py (Db κ) :=
  match createMany bufSize names recs with
  | .error e => .error e
  | .ok fs => Db.make fs

/-- `enumerate(recs)` (nlcodec/db/core.py:208-209) -/
def withIds (recs : List (List (List Int))) : List (Nat × List (List Int)) := recs.zipIdx.map fun p => (p.2, p.1)

/-- `tuple(self.fields[fn][_id] for fn in self.field_names)` (nlcodec/db/core.py:217) -/
def Db.cols (db : Db κ) (id : κ) : List Str → Py (List (List Int))
  | [] => .ok []
  | n :: ns => match Dict.get? db.fields n with
    | none => .error .key
    | some f => match f.get id with
      | .error e => .error e
      | .ok c => match db.cols id ns with
        | .error e => .error e
        | .ok cs => .ok (c :: cs)

/-- `Db.__getitem__` (nlcodec/db/core.py:216-218): the id and the columns.  The record type is a named tuple (the field names
have to be distinct identifiers other than `id`, which is not modelled) or given by the caller. -/
def Db.get (db : Db κ) (id : κ) : Py (κ × List (List Int)) :=
  match db.cols id db.names with
  | .error e => .error e
  | .ok cs => .ok (id, cs)

/-- the records with the given ids, in order -/
def Db.getAll (db : Db κ) : List κ → Py (List (κ × List (List Int)))
  | [] => .ok []
  | i :: is => match db.get i with
    | .error e => .error e
    | .ok r => match db.getAll is with
      | .error e => .error e
      | .ok rs => .ok (r :: rs)

/-- `list(db)` (nlcodec/db/core.py:220-226).  `ord` gives the order in which Python iterates over the set.  With `shuffle`,
`random.shuffle` of a set with at least two elements raises TypeError, because sets have no positions; with fewer elements it
does nothing. -/
def Db.iter (ord : List κ → List κ) (shuffle : Bool) (db : Db κ) : Py (List (κ × List (List Int))) :=
  if shuffle && decide (2 ≤ db.ids.length) then .error .type else db.getAll (ord db.ids)

end Verif
