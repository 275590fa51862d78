import Verif.Model.Spark
import Verif.Model.FreqCli
import Verif.Model.BatchIter
/-!
# The command `nlcodec-bitextdb` (nlcodec/bitextdb.py) on model and text files
-/

namespace Verif

/-- `codec.encode` as a tokenizer (nlcodec/bitextdb.py:29).  Encoding with the word, char and BPE schemes raises no exception (C05); for the
other schemes an exception, which would stop the job, is replaced by an empty sequence here. -/
def Scheme.ids (s : Scheme) (line : Str) : List Int := match s.encode line with
  | .ok ids => ids
  | .error _ => []

/-- options of `nlcodec-bitextdb` (nlcodec/bitextdb.py:44-63) besides the paths, with their defaults.  Spark options are left out; the code
uses neither them nor the column names. -/
structure BitextArgs where
  numParts : Int := 0
  srcCol : Str := lit "x"
  tgtCol : Str := lit "y"
  srcLen : Int := 256
  tgtLen : Int := 256
  truncate : Bool := true

/-- `parse_args` and `main` (nlcodec/bitextdb.py:18-68) on the contents of the files; `none` is a missing file, and for the target model an
option that was not given.  The checks of the text files come first (66-67); Spark finds the lines of `spark.read.text` (nlcodec/spark.py:63-68). -/
def bitextCli (J : Json) (cl : Cluster Nat) (ord : List (Nat × Str × Str) → List (Nat × Str × Str))
    (part : List (Nat × List (List Int)) → List (List (Nat × List (List Int)))) (args : BitextArgs) (srcModel : Str) (tgtModel : Option Str)
    (srcText tgtText : Option Str) (dir : Dir Nat) : Fx Nat Unit :=
  match srcText, tgtText with
  | some st, some tt => match loadScheme J srcModel with
    | .error e => ⟨[], .error e⟩
    | .ok s => match ((match tgtModel with
        | none => .ok s
        | some m => loadScheme J m) : Py Scheme) with
      | .error e => ⟨[], .error e⟩
      | .ok t => bitextMain cl ord part (sparkRows st) (sparkRows tt) args.truncate args.srcLen args.tgtLen s.ids t.ids args.numParts dir
  | _, _ => ⟨[], .error .assertion⟩

end Verif
