import Verif.Model.Mapred
import Verif.Model.Learn
/-! # The report of word counts

Model of `main` of nlcodec/para/mapred.py:134-138. -/

namespace Verif

/-- digits, last first, with a comma after every three if more follow -/
def commaGroup : Str → Str
  | a :: b :: c :: d :: r => a :: b :: c :: 44 :: commaGroup (d :: r)
  | r => r

/-- `f'{i:,}'` (nlcodec/para/mapred.py:138) -/
def commaStr (i : Int) : Str :=
  if i < 0 then 45 :: (commaGroup (natStr i.natAbs).reverse).reverse else (commaGroup (natStr i.natAbs).reverse).reverse

/-- `main(lines)` (nlcodec/para/mapred.py:134-138): the lines that are printed, and the exception.  The output is taken to be able to encode every
word. -/
def reportMain (lines : List Str) : Gen Str :=
  match wordCounterProc lines with
  | .error e => ⟨[], some e⟩
  | .ok tfs => ⟨(sortByFreq tfs).map fun p => p.1 ++ [9] ++ commaStr p.2, none⟩

end Verif
