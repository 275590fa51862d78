import Mathlib.Data.Nat.Log
import Verif.Model.Batch
/-!
# Multi-part databases

Model of `MultipartDb` and its `Writer` (nlcodec/db/core.py:279-407) over a model of one directory.

A directory is a map from file names to what the files hold.  Writing code is modelled by the list of its effects on the directory, so
that a crash is the execution of a prefix of the list.  Assumed of `pickle` and `json`: a completely written file is read back as it was
written, and a file cut short (`FileC.broken`) is not read.  The sizes in the `.meta` files are never used and left out.
-/

namespace Verif

variable {κ : Type} [DecidableEq κ]

/-- what a file holds: a pickled `Db`, the counts in a `.meta` file, the contents of `_SUCCESS`, the beginning of something that was
not written completely, something else -/
inductive FileC (κ : Type) where
  | db (d : Db κ)
  | mta (count : Nat)
  | success (parts : Dict Str Nat) (names : List Str)
  | broken
  | other

/-- a path: it does not exist, or it is a directory of files -/
abbrev Dir (κ : Type) := Option (Dict Str (FileC κ))

/-- effects on the directory -/
inductive Eff (κ : Type) where
  | mkdir
  | rmdir
  | del (n : Str)
  | put (n : Str) (c : FileC κ)

/-- carry out one effect -/
def Eff.apply : Eff κ → Dir κ → Dir κ
  | .mkdir, none => some []
  | .mkdir, some d => some d
  | .rmdir, _ => none
  | .del n, d => d.map (Dict.erase · n)
  | .put n c, d => d.map (Dict.set · n c)

/-- carry out effects in order -/
def runFx (fx : List (Eff κ)) (d : Dir κ) : Dir κ := fx.foldl (fun d e => e.apply d) d

/-- what a piece of writing code does: its effects, and its result -/
structure Fx (κ α : Type) where
  fx : List (Eff κ)
  res : Py α

/-- sequencing; the second part sees the directory as the first part left it -/
def Fx.andThen {α β : Type} (d : Dir κ) (a : Fx κ α) (f : α → Dir κ → Fx κ β) : Fx κ β :=
  match a.res with
  | .error e => ⟨a.fx, .error e⟩
  | .ok x => let b := f x (runFx a.fx d); ⟨a.fx ++ b.fx, b.res⟩

/-- the loop of `MultipartDb.slices` (nlcodec/db/core.py:284-290) when each slice is consumed before the next is asked for -/
def slicesLoop {α : Type} (size : Nat) : Nat → List α → Py (List (List α))
  | 0, _ => .error .fuel
  | fuel + 1, l => match l.take size with
    | [] => .ok []
    | n :: seg => match slicesLoop size fuel (l.drop size) with
      | .error e => .error e
      | .ok cs => .ok ((n :: seg) :: cs)

/-- `MultipartDb.slices(stream, size)` (nlcodec/db/core.py:281-290); `islice` raises ValueError for a negative size -/
def slices {α : Type} (size : Int) (l : List α) : Py (List (List α)) :=
  if size < 0 then .error .value else slicesLoop size.toNat (l.length + 1) l

/-- `math.ceil(math.log10(n_parts))` (nlcodec/db/core.py:55-56); the logarithm is exact here.  ValueError for 0. -/
def partPathPads (n : Nat) : Py Nat := if n = 0 then .error .value else .ok (Nat.clog 10 n)

/-- `f'{n:0{pad}d}'` for a natural number (nlcodec/db/core.py:382) -/
def padded (pad n : Nat) : Str := List.replicate (pad - (natStr n).length) 48 ++ natStr n

/-- `f'part-{part_num:0{pad}d}'` (nlcodec/db/core.py:382) -/
def partName (pad n : Nat) : Str := lit "part-" ++ padded pad n

/-- `PurePath.with_suffix('.meta')` of a file name (nlcodec/db/core.py:384): what follows the last dot is replaced -/
def withSuffix (name : Str) : Str :=
  if 46 ∈ name then (name.reverse.dropWhile (· ≠ 46)).reverse.dropLast ++ lit ".meta" else name ++ lit ".meta"

/-- `name` matches "part-*.meta" (nlcodec/db/core.py:392) -/
def isMetaName (name : Str) : Bool :=
  startsWith (lit "part-") name && startsWith (lit ".meta").reverse name.reverse && decide (10 ≤ name.length)

/-- `name.rstrip('.meta')` (nlcodec/db/core.py:393): removes all of these characters at the end -/
def rstripMeta (name : Str) : Str := rstripP (fun c => (lit ".meta").contains c) name

/-- name of the flag file (nlcodec/db/core.py:311, 396) -/
def flagName : Str := lit "_SUCCESS"

/-- `Writer.__init__` (nlcodec/db/core.py:365-377): effects and padding.  `rmOrd` is the order in which `shutil.rmtree` removes the files. -/
def Writer.init (rmOrd : List Str → List Str) (overwrite : Bool) (maxParts : Nat) (dir : Dir κ) : Fx κ Nat :=
  match dir with
  | some (e :: es) =>
    if overwrite then ⟨(rmOrd (Dict.keys (e :: es))).map .del ++ [.rmdir, .mkdir], partPathPads maxParts⟩
    else ⟨[], .error .exception⟩
  | _ => ⟨[.mkdir], partPathPads maxParts⟩

/-- `Writer.__call__(part_num, recs)` (nlcodec/db/core.py:379-388).  A file is first created or emptied, then filled. -/
def Writer.call (bufSize pad : Nat) (names : List Str) (n : Nat) (recs : List (κ × List (List Int))) : Fx κ (Str × Nat) :=
  match Db.create bufSize names recs with
  | .error e => ⟨[], .error e⟩
  | .ok db =>
    let p := partName pad n
    let m := withSuffix p
    ⟨[.put p .broken, .put p (.db db), .put m .broken, .put m (.mta db.len)], .ok (p, db.len)⟩

/-- the loop of `Writer.close` over the `.meta` files (nlcodec/db/core.py:392-394) -/
def readMetas (d : Dict Str (FileC κ)) : Dict Str Nat → List Str → Py (Dict Str Nat)
  | parts, [] => .ok parts
  | parts, m :: ms => match Dict.get? d m with
    | some (.mta c) => readMetas d (Dict.set parts (rstripMeta m) c) ms
    | _ => .error .value

/-- `Writer.close` (nlcodec/db/core.py:390-397).  `globOrd` is the order of the directory listing. -/
def Writer.close (globOrd : List Str → List Str) (names : List Str) (dir : Dir κ) : Fx κ Unit :=
  match dir with
  | none => ⟨[], .error .fileNotFound⟩
  | some d => match readMetas d [] ((globOrd (Dict.keys d)).filter isMetaName) with
    | .error e => ⟨[], .error e⟩
    | .ok parts => ⟨[.put flagName .broken, .put flagName (.success parts names)], .ok ()⟩

/-- the loop of `MultipartDb.create` (nlcodec/db/core.py:300-303) -/
def createParts (bufSize pad : Nat) (names : List Str) : Nat → List (List (κ × List (List Int))) → Fx κ Unit
  | _, [] => ⟨[], .ok ()⟩
  | n, c :: cs => match (Writer.call bufSize pad names n c).res with
    | .error e => ⟨(Writer.call bufSize pad names n c).fx, .error e⟩
    | .ok _ => ⟨(Writer.call bufSize pad names n c).fx ++ (createParts bufSize pad names (n + 1) cs).fx, (createParts bufSize pad names (n + 1) cs).res⟩

/-- what `MultipartDb.create` depends on besides its arguments: the orders of removal and of listing, and the flush threshold -/
structure Env where
  bufSize : Nat
  rmOrd : List Str → List Str
  globOrd : List Str → List Str

/-- the writing part of `MultipartDb.create(path, recs, field_names, has_id=True, ...)` (nlcodec/db/core.py:292-304); with
`has_id=False` the records are numbered first (`withIds`). -/
def createFx (env : Env) (overwrite : Bool) (partSize : Int) (maxParts : Nat) (names : List Str) (recs : List (κ × List (List Int)))
    (dir : Dir κ) : Fx κ Unit :=
  (Writer.init env.rmOrd overwrite maxParts dir).andThen dir fun pad d1 =>
    (match slices partSize recs with
      | .error e => (⟨[], .error e⟩ : Fx κ Unit)
      | .ok cs => createParts env.bufSize pad names 0 cs).andThen d1 fun _ d2 =>
        Writer.close env.globOrd names d2

/-- attributes of `MultipartDb` (nlcodec/db/core.py:327-337); `names` stands for the record type -/
structure MDb (κ : Type) where
  parts : List Str
  counts : List Nat
  names : List Str
  keep : Bool
  shuffle : Bool
  mem : List (Option (Db κ))

/-- `Db.load(path)` of a file of the directory (nlcodec/db/core.py:187-196): missing file, file that is not a pickled `Db` -/
def loadPart (dir : Dir κ) (n : Str) : Py (Db κ) :=
  match dir with
  | none => .error .fileNotFound
  | some d => match Dict.get? d n with
    | none => .error .fileNotFound
    | some (.db db) => .ok db
    | some _ => .error .exception

/-- `[Db.load(p, rec_type=rec_type) for p in parts]` (nlcodec/db/core.py:337) -/
def loadParts (dir : Dir κ) : List Str → Py (List (Db κ))
  | [] => .ok []
  | n :: ns => match loadPart dir n with
    | .error e => .error e
    | .ok db => match loadParts dir ns with
      | .error e => .error e
      | .ok dbs => .ok (db :: dbs)

/-- `MultipartDb.load(path, None, keep_in_mem, shuffle)` with `__init__` (nlcodec/db/core.py:307-337).  That the field names are
distinct identifiers other than `id`, which `namedtuple` requires, is not checked here but in `MDb.loadRec` (Model/RecType). -/
def MDb.load (keep shuffle : Bool) (dir : Dir κ) : Py (MDb κ) :=
  match dir with
  | none => .error .assertion
  | some d => match Dict.get? d flagName with
    | none => .error .assertion
    | some (.success parts names) =>
      if parts = [] then .error .assertion
      else
        let keep' := keep || decide (parts.length = 1)
        if keep' then match loadParts dir (Dict.keys parts) with
          | .error e => .error e
          | .ok dbs => .ok ⟨Dict.keys parts, Dict.values parts, names, true, shuffle, dbs.map some⟩
        else .ok ⟨Dict.keys parts, Dict.values parts, names, false, shuffle, parts.map fun _ => none⟩
    | some _ => .error .value

/-- `MultipartDb.__len__` (nlcodec/db/core.py:331, 339-340) -/
def MDb.len (m : MDb κ) : Nat := m.counts.sum

/-- iteration over a `Db` as a generator (nlcodec/db/core.py:220-226), see `Db.iter` -/
def Db.gen (ord : List κ → List κ) (shuffle : Bool) (db : Db κ) : Gen (κ × List (List Int)) :=
  if shuffle && decide (2 ≤ db.ids.length) then ⟨[], some .type⟩ else genMap db.get none (ord db.ids)

/-- `for x in items: yield from f(x)` -/
def genBind {α β : Type} (f : α → Gen β) : List α → Gen β
  | [] => ⟨[], none⟩
  | a :: as => match (f a).exc with
    | some e => ⟨(f a).out, some e⟩
    | none => ⟨(f a).out ++ (genBind f as).out, (genBind f as).exc⟩

/-- the part at a position: in memory, or loaded now (nlcodec/db/core.py:347-350) -/
def MDb.part (m : MDb κ) (dir : Dir κ) (idx : Nat) (path : Str) : Py (Db κ) :=
  if m.keep then match m.mem[idx]? with
    | some (some db) => .ok db
    | _ => .error .index
  else loadPart dir path

/-- `MultipartDb.__iter__` (nlcodec/db/core.py:342-351).  `shufP` is the shuffle of the parts, `ord` the iteration order of the id
set of each part.  Parts kept in memory were loaded without `shuffle`. -/
def MDb.iter (shufP : List (Nat × Str) → List (Nat × Str)) (ord : Nat → List κ → List κ) (dir : Dir κ) (m : MDb κ) :
    Gen (κ × List (List Int)) :=
  let idx := (List.range m.parts.length).zip m.parts
  genBind (fun p : Nat × Str => match m.part dir p.1 p.2 with
    | .error e => ⟨[], some e⟩
    | .ok db => db.gen (ord p.1) (m.shuffle && !m.keep)) (if m.shuffle then shufP idx else idx)

/-- `MultipartDb.make_eq_len_ran_batches` (nlcodec/db/core.py:353-361); `join_ratio` is not used.  The shuffles inside the parts may
depend on the part. -/
def MDb.eqBatches (maxToks : Nat) (maxSents : Option Nat) (shufP : List (Str × Option (Db κ)) → List (Str × Option (Db κ)))
    (ord : Str → List κ → List κ) (shuf : Str → List (κ × Int) → List (κ × Int)) (shufB : Str → List (List κ) → List (List κ))
    (dir : Dir κ) (m : MDb κ) : Gen (List (κ × List (List Int))) :=
  genBind (fun p : Str × Option (Db κ) =>
    match (match p.2 with | some db => .ok db | none => loadPart dir p.1 : Py (Db κ)) with
    | .error e => ⟨[], some e⟩
    | .ok db => db.eqBatches maxToks maxSents (ord p.1) (shuf p.1) (shufB p.1)) (shufP (m.parts.zip m.mem))

end Verif
