import Verif.Model.QualityFloat
/-!
# `kl_div` and `js_div` in binary64

Every division, product, sum and difference of floats is rounded; `np.log`, whose rounding numpy does not document, is a parameter `lg`, and so is
`np.sum` (see `Model.QualityFloat`). Vectors hold finite floats; the range of exponents is not limited.
-/

namespace Verif

/-- loop of `QualityEstimator.kl_div` (nlcodec/qestim.py:73-78) -/
def klLoopF (lg : ℚ → ℚ) : List (ℚ × ℚ) → ℚ → Py ℚ
  | [], total => .ok total
  | (p, q) :: rest, total =>
    if 0 < p then
      if 0 < q then klLoopF lg rest (rnd64 (total + rnd64 (p * lg (rnd64 (p / q))))) else .error .assertion
    else klLoopF lg rest total

/-- `QualityEstimator.kl_div(base, distr)` (nlcodec/qestim.py:61-78) -/
def klF64 (lg : ℚ → ℚ) (base distr : List ℚ) : Py ℚ := klLoopF lg (base.zip distr) 0

/-- `QualityEstimator.validate_distribution(distr)` (nlcodec/qestim.py:39-43) on an array of floats, with a numpy that has `np.float` if `npFloat` -/
def validateF64 (npSum : List ℚ → ℚ) (npFloat : Bool) (distr : List ℚ) : Py Unit :=
  if npFloat then
    if absF (rnd64 (npSum distr - 1)) < rnd64 (1 / 10000) then
      if distr.countP (fun x => decide (x < 0)) = 0 then .ok () else .error .assertion
    else .error .assertion
  else .error .attr

/-- `QualityEstimator.js_div(base, distr)` (nlcodec/qestim.py:80-87) -/
def jsF64 (npSum : List ℚ → ℚ) (lg : ℚ → ℚ) (npFloat : Bool) (base distr : List ℚ) : Py ℚ :=
  match validateF64 npSum npFloat base with
  | .error e => .error e
  | .ok _ => match validateF64 npSum npFloat distr with
    | .error e => .error e
    | .ok _ =>
      if base.length = distr.length then
        let middle := (base.zip distr).map fun p => rnd64 (1 / 2 * rnd64 (p.1 + p.2))
        match klF64 lg base middle with
        | .error e => .error e
        | .ok a => match klF64 lg distr middle with
          | .error e => .error e
          | .ok b => .ok (rnd64 (1 / 2 * rnd64 (a + b)))
      else .error .assertion

end Verif
