import Verif.Model.Multipart
import Verif.Model.File
import Verif.Model.Bpe
/-!
# Distributed jobs

Model of nlcodec/spark.py:50-134, `word_counts` (nlcodec/term_freq.py:17-65), `main` of nlcodec/learn.py and of nlcodec/bitextdb.py.

Spark itself is not modelled.  Of an RDD only the rows count; the order of rows, their partitioning, the order and bracketing of
reductions and the schedule of parallel tasks are parameters, and the theorems hold for all of them.  Assumed: the rows of a text file
are its lines, and every task runs once.
-/

namespace Verif

/-! ## Reductions -/

/-- a bracketing of values -/
inductive RTree (α : Type) where
  | leaf (a : α)
  | node (l r : RTree α)

/-- combine the values the way they are bracketed -/
def RTree.eval {α : Type} (f : α → α → α) : RTree α → α
  | .leaf a => a
  | .node l r => f (l.eval f) (r.eval f)

/-- the values from left to right -/
def RTree.leaves {α : Type} : RTree α → List α
  | .leaf a => [a]
  | .node l r => l.leaves ++ r.leaves

/-- what Spark decides in a reduction: how the values of each key are ordered and bracketed, and the order of the result -/
structure Reduction (κ υ : Type) where
  tree : κ → List υ → RTree υ
  ord : List (κ × υ) → List (κ × υ)

/-- `rdd.reduceByKey(f).collectAsMap()` (nlcodec/term_freq.py:47-49, 56-57) -/
def reduceByKey {κ υ : Type} [DecidableEq κ] (f : υ → υ → υ) (R : Reduction κ υ) (pairs : List (κ × υ)) : Dict κ υ :=
  R.ord ((pairs.map (·.1)).dedup.map fun k => (k, (R.tree k ((pairs.filter fun p => p.1 == k).map (·.2))).eval f))

/-! ## Counting words -/

/-- `SENT_TAG` (nlcodec/term_freq.py:42) -/
def sentTag : Str := lit "<!S!>"

/-- `word_counts(paths, dedup)` (nlcodec/term_freq.py:17-60) on the rows of the files.  `distinct` stands for `drop_duplicates`. -/
def wordCounts (R1 R2 : Reduction Str Int) (distinct : List Str → List Str) (dedup : Bool) (files : List (List Str)) :
    Py (Dict Str Int × Dict Str Int × Int) :=
  match files with
  | [] => .error .index
  | df :: dfs =>
    let df := dfs.foldl (fun df df2 => df ++ df2) df
    let df := if dedup then distinct df else df
    let wordFreqs := reduceByKey (· + ·) R1 ((df.flatMap fun row => sentTag :: split (strip row)).map fun w => (w, 1))
    match Dict.get? wordFreqs sentTag with
    | none => .error .key
    | some lineCount =>
      let wordFreqs := Dict.erase wordFreqs sentTag
      let charFreqs := reduceByKey (· + ·) R2 (wordFreqs.flatMap fun r => r.1.map fun ch => ([ch], r.2))
      .ok (wordFreqs, charFreqs, lineCount)

/-! ## Parallel text -/

/-- `read_raw_bitext` (nlcodec/spark.py:50-82) on the rows of the two files; `ord` is the order of rows after the join -/
def readRawBitext (ord : List (Nat × Str × Str) → List (Nat × Str × Str)) (src tgt : List Str) : Py (List (Nat × Str × Str)) :=
  if src.length = tgt.length then
    .ok (ord (src.zipIdx.flatMap fun s => (tgt.zipIdx.filter fun t => t.2 == s.2).map fun t => (s.2, s.1, t.1)))
  else .error .assertion

/-- `l[:n]` (nlcodec/spark.py:107) -/
def sliceTo {α : Type} (l : List α) (n : Int) : List α := l.take (sliceBound l.length n)

/-- `read_raw_bitext_tok` (nlcodec/spark.py:85-119).  The tokenizers are functions without exceptions, and the schema of the data frame
is not modelled (its inference fails if all sequences of a column are empty, which needs a limit below 1). -/
def readRawBitextTok (ord : List (Nat × Str × Str) → List (Nat × Str × Str)) (src tgt : List Str) (truncate : Bool) (srcLen tgtLen : Int)
    (srcTok tgtTok : Str → List Int) : Py (List (Nat × List Int × List Int)) :=
  match readRawBitext ord src tgt with
  | .error e => .error e
  | .ok raw =>
    let tok := ((raw.filter fun r => r.2.1 ≠ [] && r.2.2 ≠ []).map fun r => (r.1, srcTok r.2.1, tgtTok r.2.2)).filter fun r => r.2.1.length ≠ 0 && r.2.2.length ≠ 0
    let tok := if truncate then tok.map fun r => (r.1, sliceTo r.2.1 srcLen, sliceTo r.2.2 tgtLen)
      else tok.filter fun r => decide ((r.2.1.length : Int) < srcLen) && decide ((r.2.2.length : Int) < tgtLen)
    match tok with
    | [] => .error .index
    | _ :: _ => .ok tok

/-! ## Writing databases in parallel -/

variable {κ : Type} [DecidableEq κ]

/-- the exception of a task -/
def Fx.exc? {α : Type} (a : Fx κ α) : Option Exc := match a.res with
  | .error e => some e
  | .ok _ => none

/-- an action on all partitions: `sched` merges the effects of the tasks.  If a task fails, the job fails; the other tasks may or may not
have run or been stopped on the way, so that `cut` effects took place. -/
def runJob {α : Type} (sched : List (List (Eff κ)) → List (Eff κ)) (cut : Nat) (tasks : List (Fx κ α)) : Fx κ Unit :=
  match tasks.findSome? Fx.exc? with
  | none => ⟨sched (tasks.map (·.fx)), .ok ()⟩
  | some e => ⟨(sched (tasks.map (·.fx))).take cut, .error e⟩

/-- what a distributed write depends on besides its arguments -/
structure Cluster (κ : Type) extends Env where
  sched : List (List (Eff κ)) → List (Eff κ)
  cut : Nat
  repart : Nat → List (List (κ × List (List Int))) → List (List (κ × List (List Int)))

/-- the writing part of `rdd_as_db(rdd, db_path, field_names, repartition, overwrite=, max_parts=)` (nlcodec/spark.py:122-129) with
`Writer.__exit__` (nlcodec/db/core.py:402-407): the writer is closed only if the job succeeded.  A partition is the list of its records. -/
def rddAsDb (cl : Cluster κ) (overwrite : Bool) (maxParts : Nat) (names : List Str) (repartition : Int)
    (parts : List (List (κ × List (List Int)))) (dir : Dir κ) : Fx κ Unit :=
  let parts := if 0 < repartition then cl.repart repartition.toNat parts else parts
  (Writer.init cl.rmOrd overwrite maxParts dir).andThen dir fun pad d1 =>
    (runJob cl.sched cl.cut (parts.zipIdx.map fun p => Writer.call cl.bufSize pad names p.2 p.1)).andThen d1 fun _ d2 =>
      Writer.close cl.globOrd names d2

/-- `main` of nlcodec/bitextdb.py:18-35 after loading the codecs: `srcTok`, `tgtTok` are their `encode` methods, `part` the partitioning of
the data frame; `DEF_MAX_PARTS` is 1000 (nlcodec/db/core.py:31).
The options `--src-col` and `--tgt-col` are ignored by the code: the columns are always `x` and `y`. -/
def bitextMain (cl : Cluster Nat) (ord : List (Nat × Str × Str) → List (Nat × Str × Str))
    (part : List (Nat × List (List Int)) → List (List (Nat × List (List Int)))) (src tgt : List Str) (truncate : Bool) (srcLen tgtLen : Int)
    (srcTok tgtTok : Str → List Int) (numParts : Int) (dir : Dir Nat) : Fx Nat Unit :=
  match readRawBitextTok ord src tgt truncate srcLen tgtLen srcTok tgtTok with
  | .error e => ⟨[], .error e⟩
  | .ok rows => rddAsDb cl false 1000 [lit "x", lit "y"] numParts (part (rows.map fun r => (r.1, [r.2.1, r.2.2]))) dir

end Verif
