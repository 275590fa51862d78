import Verif.Model.Spark
/-!
# `nlcodec-learn`

Model of `main` of nlcodec/learn.py (64-89) and of `learn_vocab` on statistics files (nlcodec/codec.py:642-664).  Spark and the orders
it decides are as in Verif/Model/Spark.lean; logging and compression are left out.
-/

namespace Verif

/-- `REGISTRY` (nlcodec/codec.py:632-639) -/
def LevelName.kind : LevelName → Kind
  | .char => .char
  | .word => .word
  | .bpe | .subword => .bpe
  | .clasz => .clasz
  | .byte => .byte

/-- `Scheme.learn(inp, vocab_size=, min_freq=, term_freqs=True, ...)` as called by `learn_vocab` (nlcodec/codec.py:654-661, with 406-413,
429-433, 503-527, 554-563, 624-628) on the lines of a statistics file -/
def learnTf (J : Json) (ord : Nat → List Nat → List Nat) (A : Acc) (level : LevelName) (lines : List Str) (vocabSize minFreq : Int)
    (cov : Option A.F) (minCoEv : Int) : Py (List Ty) :=
  let mf := effMinFreq level minFreq
  match level with
  | .word => learnFromStats J A lines vocabSize mf none
  | .char => match readTermFreqs J lines with
    | .error e => .error e
    | .ok (tf, n) => getInitVocab A Level.char tf cov (some n) mf vocabSize
  | .clasz => match readTermFreqs J lines with
    | .error e => .error e
    | .ok (tf, _) => .ok (classInitVocab tf)
  | .byte => .ok byteVocab
  | .bpe | .subword =>
    let minEv := if level = .bpe then minCoEv else MIN_CO_EV
    if ¬ 0 < (if 1 < minEv ∧ vocabSize ≤ 1 then maxSize else vocabSize) then .error .assertion
    else match readTermFreqs J lines with
      | .error e => .error e
      | .ok (tf, n) => bpeLearnTf ord A tf n vocabSize mf cov minEv

/-- rows that `write_out` has written when it stops (nlcodec/codec.py:124-126): those before the first wrong index -/
def rowsWritten : List Ty → Nat → Str
  | [], _ => []
  | t :: ts, i => if i = t.idx then t.format ++ 10 :: rowsWritten ts (i + 1) else []

/-- `Scheme(table).save(out=model)` (nlcodec/codec.py:662-663 with 110-129 and 348-349): the content of the file `model` afterwards, and the
exception.  The file is truncated when it is opened, before `max` of an empty table fails; what was written before an exception reaches the
file when it is closed at the end of the process. -/
def saveModel (J : Json) (k : Kind) (table : List Ty) (model : Option Str) : Option Str × Option Exc :=
  match Scheme.make k table with
  | .error e => (model, some e)
  | .ok s => match s.save J with
    | .ok text => (some text, none)
    | .error e => match maxLevel s.table with
      | none => (some [], some e)
      | some m => (some (dropSurrogates (35 :: J.dumps { scheme := some s.kind.name, maxLevel := some m } ++ 10 :: rowsWritten s.table 0)), some e)

/-- parameters of `learn_vocab` (nlcodec/codec.py:642-643): names, and whether there is a default -/
def learnParams : List (Str × Bool) :=
  [(lit "inp", false), (lit "level", false), (lit "model", false), (lit "vocab_size", false), (lit "min_freq", true), (lit "term_freqs", true),
   (lit "char_coverage", true), (lit "min_co_ev", true)]

/-- the check of a call `learn_vocab(**given, **args)`: no keyword twice, none unknown, none missing -/
def bindKeywords (given args : List Str) : Py Unit :=
  if args.any fun k => decide (k ∈ given) then .error .type
  else if (given ++ args).any fun k => decide (k ∉ learnParams.map (·.1)) then .error .type
  else if learnParams.any fun p => !p.2 && decide (p.1 ∉ given ++ args) then .error .type
  else .ok ()

/-- keys of the parsed arguments (nlcodec/learn.py:21-61) -/
def learnKeys : List Str :=
  [lit "inp", lit "model", lit "vocab_size", lit "level", lit "min_freq", lit "char_coverage", lit "min_co_ev", lit "spark_master",
   lit "driver_mem", lit "dedup"]

/-- values of the parsed arguments that matter; the input files are given by their rows; `min_freq` is 0 for None -/
structure LearnArgs (F : Type) where
  files : List (List Str)
  level : LevelName
  vocabSize : Int
  minFreq : Int
  cov : Option F
  minCoEv : Int
  dedup : Bool

/-- contents of the three files: statistics of words and characters next to the model, and the model -/
structure LearnFiles where
  words : Option Str
  chars : Option Str
  model : Option Str
  deriving DecidableEq

/-- the statistics file that is used (nlcodec/learn.py:69) -/
def LearnFiles.stats (fs : LearnFiles) (level : LevelName) : Option Str := if level = .char then fs.chars else fs.words

/-- `main` (nlcodec/learn.py:64-89): the files afterwards, and the outcome -/
def learnMain (R1 R2 : Reduction Str Int) (distinct : List Str → List Str) (J : Json) (ord : Nat → List Nat → List Nat) (A : Acc)
    (args : LearnArgs A.F) (fs : LearnFiles) : LearnFiles × Py Unit :=
  let keys := ((learnKeys.erase (lit "spark_master")).erase (lit "driver_mem")).erase (lit "dedup")
  let extracted : LearnFiles × Py (List Str) := match fs.stats args.level with
    | some _ => (fs, .ok keys)
    | none => match wordCounts R1 R2 distinct args.dedup args.files with
      | .error e => (fs, .error e)
      | .ok (words, chars, lineCount) =>
        ({ fs with words := some (writeStats J words (some lineCount)), chars := some (writeStats J chars (some lineCount)) },
          .ok (keys.erase (lit "inp")))
  match extracted with
  | (fs, .error e) => (fs, .error e)
  | (fs, .ok keys) => match fs.stats args.level with
    | none => (fs, .error .assertion)
    | some text => match bindKeywords [lit "inp", lit "term_freqs"] keys with
      | .error e => (fs, .error e)
      | .ok () => match learnTf J ord A args.level (fileLines text) args.vocabSize args.minFreq args.cov args.minCoEv with
        | .error e => (fs, .error e)
        | .ok table =>
          let saved := saveModel J args.level.kind table fs.model
          ({ fs with model := saved.1 }, match saved.2 with
            | some e => .error e
            | none => .ok ())

end Verif
