import Verif.Model.File
import Verif.Model.Batch
/-!
# Command line: encode and decode

Model of `encode`, `decode` (nlcodec/codec.py:681-698) and of the `encode` and `decode` tasks of `main`
(nlcodec/__main__.py:14-17, 96-106).  Input and output files are texts (sequences of code points): the UTF-8 conversion of
`argparse.FileType` is not modelled.
-/

namespace Verif

/-- iterating over a text file gives the lines with their line feeds -/
def keepLines : Str → List Str
  | [] => []
  | c :: r => if c = 10 then [10] :: keepLines r else consHead c (keepLines r)

/-- `for line in inp` for a file opened in text mode (nlcodec/__main__.py:41, universal newlines) -/
def inpLines (text : Str) : List Str := keepLines (univNewlines text)

/-- loop body of `encode` (nlcodec/codec.py:681-687) followed by `str(idx)` and `' '.join(seq)` (nlcodec/__main__.py:101-103) -/
def encodeLine (s : Scheme) (indices : Bool) (line : Str) : Py Str :=
  if indices then match s.encode line with
    | .error e => .error e
    | .ok ids => .ok (join [32] (ids.map intStr))
  else match s.encodeStr line with
    | .error e => .error e
    | .ok ps => .ok (join [32] ps)

/-- loop body of `decode` (nlcodec/codec.py:690-698) -/
def decodeLine (s : Scheme) (indices : Bool) (line : Str) : Py Str :=
  if indices then match pyInts (split line) with
    | .error e => .error e
    | .ok ids => s.decode ids
  else s.decodeStr (split line)

/-- `write_lines` (nlcodec/__main__.py:14-17): the text written and the exception of the generator, if any -/
def writeLines (g : Gen Str) : Str × Option Exc := (g.out.flatMap (· ++ [10]), g.exc)

/-- `nlcodec encode` (nlcodec/__main__.py:96-103, 106) -/
def cliEncode (s : Scheme) (indices : Bool) (text : Str) : Str × Option Exc :=
  writeLines (genMap (encodeLine s indices) none (inpLines text))

/-- `nlcodec decode` (nlcodec/__main__.py:96-98, 104-106) -/
def cliDecode (s : Scheme) (indices : Bool) (text : Str) : Str × Option Exc :=
  writeLines (genMap (decodeLine s indices) none (inpLines text))

end Verif
