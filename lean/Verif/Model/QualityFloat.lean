import Verif.Model.Quality
import Verif.Model.Eval
/-!
# `EMD_simple` in binary64

`Model.Quality` computes the imbalance exactly; here every division, subtraction and addition of floats is rounded. `numpy` does not
document in which order `np.sum` adds floats (it unrolls and splits the array), so the sum is a parameter `npSum`. Sums of integers are
exact as long as they fit 64 bits.
-/

namespace Verif

/-- `np.abs` of a float (nlcodec/qestim.py:59) -/
def absF (x : ℚ) : ℚ := if x < 0 then -x else x

/-- `QualityEstimator.EMD_simple(stats)` on a list or array of counts and with the default cost (nlcodec/qestim.py:54-59); `npSum` is `np.sum` of an
array of floats. Division of integers first converts both to floats; a sum of zero gives `nan` (`none`). -/
def emdF64 (npSum : List ℚ → ℚ) (stats : List Nat) : Py (Option ℚ) :=
  let total := rnd64 stats.sum
  let k := stats.length
  if k = 0 then .error .zeroDiv
  else if stats.sum = 0 then .ok none
  else
    let distr := stats.map fun (x : Nat) => rnd64 (rnd64 x / total)
    let uniform := rnd64 (1 / k)
    .ok (some (rnd64 (1 / 2 * npSum (distr.map fun p => absF (rnd64 (p - uniform))))))

/-- `np.sum` of floats (nlcodec/qestim.py:59) as a loop from the right, one of the possible orders; used in examples -/
def sumFromRight : List ℚ → ℚ
  | [] => 0
  | [x] => x
  | x :: y :: l => rnd64 (x + sumFromRight (y :: l))

/-- `QualityEstimator.earth_mov_dist(before, after, validate=False)` on arrays of floats with the default cost of one half (nlcodec/qestim.py:45-52) -/
def earthF64 (npSum : List ℚ → ℚ) (before after : List ℚ) : Py ℚ :=
  if before.length = after.length then .ok (rnd64 (1 / 2 * npSum ((after.zip before).map fun p => absF (rnd64 (p.1 - p.2)))))
  else .error .assertion

/-- `QualityEstimator(codec).estimate(lines)` (nlcodec/qestim.py:35-37, 89-113) as `estimate`, with the imbalance and the mean length (a division of
integers, which Python rounds once) in binary64 -/
def estimateF64 (npSum : List ℚ → ℚ) (s : Scheme) (lines : List Str) : Py CodecQuality :=
  match statsLoop s lines (List.replicate s.table.length 0) 0 with
  | .error e => .error e
  | .ok (stats, nSeqs) =>
    let nToks := isum stats
    if nSeqs = 0 then .error .zeroDiv
    else match s.unkIdx with
      | .error e => .error e
      | .ok u => match pyIndex stats u with
        | .error e => .error e
        | .ok unk => match emdF64 npSum (stats.map Int.toNat) with
          | .error e => .error e
          | .ok imb => .ok ⟨s.table.length, imb, nToks, rnd64 ((nToks : ℚ) / nSeqs), unk⟩

end Verif
