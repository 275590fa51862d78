import Verif.Model.Spark
/-!
# `nlcodec-freq`

Model of `main` and `parse_args` of nlcodec/term_freq.py (83-111).  Files are texts by path; Spark is as in Verif/Model/Spark.lean.
-/

namespace Verif

/-- contents of the files -/
abbrev Files := Str → Option Str

/-- the file `p` has the text `t` from now on -/
def Files.put (fs : Files) (p : Str) (t : Str) : Files := fun q => if q = p then some t else fs q

/-- the options, one constructor each (nlcodec/term_freq.py:97-107).  `-i` takes at least one path; `-` for standard output is not
modelled. -/
inductive FreqOpt
  | inp (paths : List Str)
  | words (path : Str)
  | chars (path : Str)
  | dedup
  | noDedup
  deriving DecidableEq

/-- the parsed arguments -/
structure FreqArgs where
  inp : Option (List Str) := none
  words : Option Str := none
  chars : Option Str := none
  dedup : Bool := true

/-- one option (nlcodec/term_freq.py:97-107): the last one counts; `FileType('w')` truncates the file at once -/
def FreqOpt.parse (o : FreqOpt) (r : FreqArgs × Files) : FreqArgs × Files :=
  match o with
  | .inp ps => ({ r.1 with inp := some ps }, r.2)
  | .words p => ({ r.1 with words := some p }, r.2.put p [])
  | .chars p => ({ r.1 with chars := some p }, r.2.put p [])
  | .dedup => ({ r.1 with dedup := true }, r.2)
  | .noDedup => ({ r.1 with dedup := false }, r.2)

/-- `parse_args` (nlcodec/term_freq.py:92-111).  Two options share the destination `dedup`; argparse uses the default of the first one,
True. -/
def parseFreq (opts : List FreqOpt) (fs : Files) : FreqArgs × Files := opts.foldl (fun r o => o.parse r) ({}, fs)

/-- the rows that `spark.read.text` finds in a file (nlcodec/term_freq.py:33): its lines; a line ends with LF, CR LF or CR -/
def sparkRows (text : Str) : List Str := fileLines (univNewlines text)

/-- reading the input files (nlcodec/term_freq.py:33); `p.exists()` (32) has no effect.  Spark's AnalysisException for a missing file is
`fileNotFound` here. -/
def readTexts (fs : Files) : List Str → Py (List (List Str))
  | [] => .ok []
  | p :: ps => match fs p with
    | none => .error .fileNotFound
    | some t => match readTexts fs ps with
      | .error e => .error e
      | .ok rs => .ok (sparkRows t :: rs)

/-- `main` (nlcodec/term_freq.py:83-89): the files afterwards, and the exception.  The texts written reach the files when the process ends;
if both options name one file, they overwrite each other there, which is not modelled (here the second one stays). -/
def freqMain (R1 R2 : Reduction Str Int) (distinct : List Str → List Str) (J : Json) (opts : List FreqOpt) (fs : Files) : Files × Option Exc :=
  let (args, fs) := parseFreq opts fs
  if args.words = none ∧ args.chars = none then (fs, some .assertion)
  else match args.inp with
    | none => (fs, some .type)
    | some paths => match readTexts fs paths with
      | .error e => (fs, some e)
      | .ok rows => match wordCounts R1 R2 distinct args.dedup rows with
        | .error e => (fs, some e)
        | .ok (words, chars, lineCount) =>
          let fs := match args.words with
            | none => fs
            | some p => fs.put p (writeStats J words (some lineCount))
          let fs := match args.chars with
            | none => fs
            | some p => fs.put p (writeStats J chars (some lineCount))
          (fs, none)

end Verif
