import Verif.Model.Eval
/-!
# The text written by `nlcodec.eval.termfreq`

Model of nlcodec/eval/termfreq.py:35-44 with the parts of `json.dumps(..., ensure_ascii=False)` it uses: integers, strings and lists.
-/

namespace Verif

/-- values given to `json.dumps` (nlcodec/eval/termfreq.py:43) -/
inductive JTree where
  | int (i : Int)
  | str (s : Str)
  | arr (l : List JTree)

/-- one character as written by the string encoder of `json` with `ensure_ascii=False` (json.encoder.py_encode_basestring, called from
nlcodec/eval/termfreq.py:43): quote, backslash and control characters are escaped -/
def jsonChar (c : Nat) : Str :=
  if c = 34 then [92, 34]
  else if c = 92 then [92, 92]
  else if c = 10 then [92, 110]
  else if c = 13 then [92, 114]
  else if c = 9 then [92, 116]
  else if c = 12 then [92, 102]
  else if c = 8 then [92, 98]
  else if c < 32 then [92, 117, 48, 48, hexDigit (c / 16), hexDigit (c % 16)]
  else [c]

mutual
/-- `json.dumps(v, ensure_ascii=False)` (nlcodec/eval/termfreq.py:43) -/
def JTree.print : JTree → Str
  | .int i => intStr i
  | .str s => 34 :: s.flatMap jsonChar ++ [34]
  | .arr l => 91 :: printItems l ++ [93]
/-- items of a list, with the separator `", "` (json.encoder, called from nlcodec/eval/termfreq.py:43) -/
def printItems : List JTree → Str
  | [] => []
  | [v] => v.print
  | v :: w :: r => v.print ++ 44 :: 32 :: printItems (w :: r)
end

/-- `json.dumps([gram, freq, names], ensure_ascii=False)` (nlcodec/eval/termfreq.py:41-43) -/
def termFreqLine (row : List Int × Int × List Str) : Str :=
  (JTree.arr [.arr (row.1.map .int), .int row.2.1, .arr (row.2.2.map .str)]).print

/-- everything that `termfreq.main` writes (nlcodec/eval/termfreq.py:35-44).  An exception leaves the lines before it in the file; it
is only reported here. -/
def termFreqText (s : Scheme) (nCpus : Int) (done : List (Nat × Py (List (List Int))) → List (Nat × Py (List (List Int))))
    (inp : List Str) (n : Int) : Py Str :=
  match termFreqMain s nCpus done inp n with
  | .error e => .error e
  | .ok rows => .ok (rows.flatMap fun r => termFreqLine r ++ [10])

end Verif
