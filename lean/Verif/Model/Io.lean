import Verif.Model.Bytes
import Verif.Model.Shrink
/-!
# Files opened by `IO`

Model of the class `IO` (nlcodec/utils.py:80-123) in text mode and of `shrink_vocab` on files of bytes.  The encoding is UTF-8 with
`errors='replace'`.  A plain file is opened with `newline='\n'`, a file named `*.gz` with the default of `gzip.open`, universal newlines.  Compression itself
is not modelled: the bytes of a `.gz` file are those of its content.
-/

namespace Verif

/-- one call of the incremental UTF-8 decoder with `errors='replace'`, not final: the characters and the bytes kept.  The fuel is the number of
bytes. -/
def utf8FeedR : Nat → List Nat → Str × List Nat
  | _, [] => ([], [])
  | 0, b :: bs => ([], b :: bs)
  | k + 1, b :: bs => match utf8Step (b :: bs) with
    | (some (c, r), _) => (c :: (utf8FeedR k r).1, (utf8FeedR k r).2)
    | (none, r) => if utf8Pending (b :: bs) then ([], b :: bs) else (0xFFFD :: (utf8FeedR k r).1, (utf8FeedR k r).2)

/-- the text of a file opened by `IO.reader(path)` (nlcodec/utils.py:87-100) whose bytes arrive in chunks, after the kept bytes `pend`; at the
end the decoder is called once more, as final -/
def readReplace : List Nat → List (List Nat) → Str
  | pend, [] => utf8Decode pend
  | pend, c :: cs =>
    let r := utf8FeedR (pend ++ c).length (pend ++ c)
    r.1 ++ readReplace r.2 cs

/-- a file: whether its name ends with `.gz`, and its bytes as they arrive -/
structure IoFile where
  gz : Bool := false
  chunks : List (List Nat)

/-- `with IO.reader(file) as lines: for line in lines` (nlcodec/utils.py:90-100, 105-107; nlcodec/codec.py:308-309) -/
def IoFile.lines (f : IoFile) : List Str :=
  if f.gz then inpLines (readReplace [] f.chunks) else keepLines (readReplace [] f.chunks)

/-- `IO.read_as_stream(paths)` (nlcodec/utils.py:113-123) -/
def readAsStream (files : List IoFile) : List Str := files.flatMap IoFile.lines

/-- `shrink_vocab(files, min_freq)` (nlcodec/codec.py:289-346) -/
def shrinkFiles (s : Scheme) (files : List IoFile) (minFreq : Int) : Py (List Nat × List Ty) := shrinkVocab s (readAsStream files) minFreq

/-- the bytes of a file after `with IO.writer(path) as out: out.write(text)` (nlcodec/utils.py:87-100, 109-111): surrogates are written as question marks,
line feeds as they are -/
def ioWrite (text : Str) : List Nat := text.flatMap fun c => match utf8Char c with
  | .ok bs => bs
  | .error _ => [63]

end Verif
