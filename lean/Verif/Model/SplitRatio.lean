import Verif.Model.Scheme
/-!
# Model of the split ratio of BPE encoding (nlcodec/codec.py)
-/

namespace Verif

/-- `random.random()` (used at nlcodec/codec.py:171) gives `k / 2^53` with `0 ≤ k < 2^53`; the draws are the values `k`.
The comparison `random.random() < split_ratio` is between the exact values of the two floats. -/
def drawBelow (ratio : Rat) (draws : Nat → Fin (2 ^ 53)) (i : Nat) : Bool := decide ((((draws i).val : Int) : Rat) / 2 ^ 53 < ratio)

/-- `BPEScheme.encode_str(line, split_ratio)` (nlcodec/codec.py:461-498). `none` stands for nan, which is not greater than 0. -/
def bpeEncodeStrRatio (s : Scheme) (ratio : Option Rat) (draws : Nat → Fin (2 ^ 53)) (line : Str) : Py (List Str) :=
  match ratio with
  | none => s.encodeStr line
  | some r => if 0 < r then bpeEncodeStrSplit s (drawBelow r draws) line else s.encodeStr line

/-- `BPEScheme.encode(line, split_ratio)` (nlcodec/codec.py:457-459) -/
def bpeEncodeRatio (s : Scheme) (ratio : Option Rat) (draws : Nat → Fin (2 ^ 53)) (line : Str) : Py (List Int) :=
  match bpeEncodeStrRatio s ratio draws line with
  | .error e => .error e
  | .ok ps => s.idsOf ps

end Verif
