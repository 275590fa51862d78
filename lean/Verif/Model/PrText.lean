import Verif.Model.TermFreq
import Verif.Model.File
import Mathlib.Data.Int.Log
import Mathlib.Data.Rat.Floor
/-!
# The text written by `nlcodec.eval.pr_measure`

Model of nlcodec/eval/pr_measure.py:54-102 with the number format `:g` of Python, and of the reading of `--freqs`.
-/

namespace Verif

/-- the integer nearest to `y`, the even one of two (rounding of decimal digits by the format `:g` in nlcodec/eval/pr_measure.py:101-102) -/
def roundEven (y : ℚ) : ℤ :=
  let f := ⌊y⌋
  if y - f < 1 / 2 then f else if 1 / 2 < y - f then f + 1 else if f % 2 = 0 then f else f + 1

/-- a numeral with a decimal point, without trailing zeros in the fraction and without a point if nothing follows it (format `:g` in
nlcodec/eval/pr_measure.py:101-102) -/
def dotted (whole frac : Str) : Str :=
  let f := rstripP (· == 48) frac
  if f = [] then whole else whole ++ 46 :: f

/-- `f'{x:g}'` (nlcodec/eval/pr_measure.py:101-102) for numbers that are not negative: six significant digits, with an exponent of two digits or
more if the number is less than 0.0001 or has more than six digits before the point -/
def fmtG (x : ℚ) : Str :=
  if x = 0 then lit "0" else
  let e0 := Int.log 10 x
  let m0 := (roundEven (x / 10 ^ (e0 - 5))).toNat
  let m := if m0 = 1000000 then 100000 else m0
  let e := if m0 = 1000000 then e0 + 1 else e0
  let ds := natStr m
  if -4 ≤ e ∧ e < 6 then
    if 0 ≤ e then dotted (ds.take (e + 1).toNat) (ds.drop (e + 1).toNat)
    else dotted [48] (List.replicate (-e - 1).toNat 48 ++ ds)
  else dotted (ds.take 1) (ds.drop 1) ++ 101 :: (if e < 0 then 45 else 43) :: (if e.natAbs < 10 then [48] else []) ++ natStr e.natAbs

/-- one line of the table (nlcodec/eval/pr_measure.py:93-102) -/
def prLine (r : PrRow) : Str :=
  join [9] [natStr r.rank, join [44] (r.gram.map intStr), r.name, intStr r.rankFreq, intStr r.refFreq, intStr r.candFreq, fmtG r.recall,
    fmtG r.precision, fmtG r.f1] ++ [10]

/-- the first line of the table (nlcodec/eval/pr_measure.py:92) -/
def prHeader : Str := lit "Rank\tGram\tName\tRankF\tRefF\tCandF\tRecall\tPrecision\tF1\n"

/-- the items of `gram` as integers (nlcodec/eval/pr_measure.py:65) -/
def jsonInts : List JTree → Option (List Int)
  | [] => some []
  | .int i :: r => (jsonInts r).map (i :: ·)
  | _ :: _ => none

/-- `g, f, name = json.loads(l.strip())` (nlcodec/eval/pr_measure.py:64-65).  Of the values that can be taken apart like this, only those with a list
of integers and a frequency are modelled; the others are a ValueError here. -/
def freqEntry (loads : Str → Py JTree) (line : Str) : Py (List Int × Int) :=
  match loads (strip line) with
  | .error e => .error e
  | .ok (.arr [.arr g, .int f, _]) => match jsonInts g with
    | none => .error .value
    | some is => .ok (is, f)
  | .ok _ => .error .value

/-- `[json.loads(l.strip()) for l in freqs]` (nlcodec/eval/pr_measure.py:64) -/
def readGramFreqs (loads : Str → Py JTree) : List Str → Py (List (List Int × Int))
  | [] => .ok []
  | l :: ls => match freqEntry loads l with
    | .error e => .error e
    | .ok p => match readGramFreqs loads ls with
      | .error e => .error e
      | .ok r => .ok (p :: r)

/-- the frequencies of the option `--freqs`, if it is given, from the text of the file (nlcodec/eval/pr_measure.py:62-65) -/
def optGramFreqs (loads : Str → Py JTree) : Option Str → Py (Option (List (List Int × Int)))
  | none => .ok none
  | some text => match readGramFreqs loads (fileLines (univNewlines text)) with
    | .error e => .error e
    | .ok fs => .ok (some fs)

/-- `main(model_path, cands, refs, n, out, freqs)` (nlcodec/eval/pr_measure.py:54-102): the text written to `out`.  `model` is the text of the model
file, `freqs` that of the frequency file; an exception leaves a part of the table in the file, here it is only reported.  The frequencies are read
after the texts are encoded; here before, so of two failures another one may be reported. -/
def prFile (fl : ℚ → ℚ) (J : Json) (loads : Str → Py JTree) (model : Str) (nCpus : Int)
    (done : List (Nat × Py (List (List Int))) → List (Nat × Py (List (List Int)))) (cands refs : List Str) (n : Int) (freqs : Option Str) : Py Str :=
  match loadScheme J model with
  | .error e => .error e
  | .ok s => match optGramFreqs loads freqs with
    | .error e => .error e
    | .ok fs => match prMain fl s nCpus done cands refs n fs with
      | .error e => .error e
      | .ok rows => .ok (prHeader ++ rows.flatMap prLine)

end Verif
