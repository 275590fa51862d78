import Verif.Model.Track
import Verif.Model.QualityFloat
/-!
# `BpeTracker` in binary64

Model.Track computes imbalances and means exactly; here every operation of floats is rounded. As in Model.QualityFloat the order in which `np.sum` adds floats is
a parameter `npSum`; `np.mean` of integers adds them as floats too. Sums of integers are exact as long as they fit 64 bits.
-/

namespace Verif

/-- `BpeTracker.earth_mov_dist(stats)` (nlcodec/eval/bpe_len.py:121-127) on an array of integers, in binary64; division of integers first converts both to floats.
A sum of zero gives `none` as in `trackerEmd`. -/
def trackerEmdF64 (npSum : List ℚ → ℚ) (stats : List Int) : Py (Option ℚ) :=
  let k := stats.length
  let total := stats.sum
  if k = 0 then .error .zeroDiv
  else if total = 0 then .ok none
  else
    let probs := stats.map fun (x : Int) => rnd64 (rnd64 x / rnd64 total)
    let diffs := probs.map fun p => absF (rnd64 (p - rnd64 (1 / k)))
    .ok (some (rnd64 (1 / 2 * npSum diffs)))

/-- `np.mean(self.seq_lens)` (nlcodec/eval/bpe_len.py:129-130) in binary64: the floats are added and the sum is divided by their number; `none` is `nan` -/
def meanLenF64 (npSum : List ℚ → ℚ) (lens : List Int) : Option ℚ :=
  if lens = [] then none else some (rnd64 (npSum (lens.map fun (x : Int) => rnd64 x) / rnd64 lens.length))

/-- `k`, `earth_mov_dist(self.uni[:k])` and the mean length (nlcodec/eval/bpe_len.py:149-152, 190-193) in binary64 -/
def trackRowF64 (npSum : List ℚ → ℚ) (k : Nat) (T : Track) : Py TrackRow :=
  match trackerEmdF64 npSum (T.uni.take k) with
  | .error e => .error e
  | .ok emd => .ok (k, emd, meanLenF64 npSum T.lens)

/-- `estimate(codec_path, data)` (nlcodec/eval/bpe_len.py:198-201) in binary64 -/
def trackEstimateF64 (npSum : List ℚ → ℚ) : (Nat → List Nat → List Nat) → Option Int → List Ty → List Str → Py (List TrackRow × CodecXt × Track) :=
  trackEstimateBy (trackRowF64 npSum)

end Verif
