import Verif.Model.QualityFloat
import Verif.Model.Cli
/-!
# The command of `nlcodec/qestim.py`
-/

namespace Verif

/-- `estimate(codec_path, data)` (nlcodec/qestim.py:116-120) with `data` opened as text (nlcodec/qestim.py:127): the estimate that is printed.
`model` and `data` are the texts of the two files; `npSum` is `np.sum` of floats, see `emdF64`.  The printed form of the data class is not modelled. -/
def qestimMain (J : Json) (npSum : List ℚ → ℚ) (model data : Str) : Py CodecQuality :=
  match loadScheme J model with
  | .error e => .error e
  | .ok s => estimateF64 npSum s (inpLines data)

end Verif
