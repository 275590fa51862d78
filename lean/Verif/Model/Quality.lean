import Verif.Model.Eval
import Mathlib.Analysis.SpecialFunctions.Log.Basic
/-!
# Quality estimates and divergences

Model of nlcodec/qestim.py:35-113 and of `BpeTracker.earth_mov_dist` (nlcodec/eval/bpe_len.py:121-127).

Counts and their ratios are exact rationals, divergences are real numbers: rounding is not modelled here.
-/

namespace Verif

/-- `QualityEstimator.EMD_simple(stats, moving_cost)` (nlcodec/qestim.py:54-59); `none` is `nan`, which numpy gives for a vector of sum zero.
An empty vector fails in `1/k`. -/
def emdSimple (stats : List ℚ) (movingCost : ℚ) : Py (Option ℚ) :=
  let k := stats.length
  if 0 < movingCost then
    if k = 0 then .error .zeroDiv
    else if stats.sum = 0 then .ok none
    else .ok (some (1 / 2 * movingCost * ((stats.map fun x => |x / stats.sum - 1 / k|).sum)))
  else .error .assertion

/-- `BpeTracker.earth_mov_dist(stats)` (nlcodec/eval/bpe_len.py:121-127); see `emdSimple`.  If counts are negative, as they can be (property C61), and the sum is
zero, numpy gives `nan` only if some count is zero, otherwise infinity; this is `none` here too. -/
def trackerEmd (stats : List ℚ) : Py (Option ℚ) :=
  let k := stats.length
  if k = 0 then .error .zeroDiv
  else if stats.sum = 0 then .ok none
  else .ok (some (1 / 2 * (stats.map fun x => |x / stats.sum - 1 / k|).sum))

/-- `QualityEstimator.validate_distribution(distr)` (nlcodec/qestim.py:39-43) on an array of floats; `npFloat` tells whether numpy still has the
attribute `np.float` (removed in numpy 1.24). -/
noncomputable def validateDistribution (npFloat : Bool) (distr : List ℝ) : Py Unit :=
  if npFloat then
    if |distr.sum - 1| < 1 / 10000 then
      if ∀ x ∈ distr, 0 ≤ x then .ok () else .error .assertion
    else .error .assertion
  else .error .attr

/-- `QualityEstimator.earth_mov_dist(before, after, moving_cost, validate)` (nlcodec/qestim.py:45-52) -/
noncomputable def earthMovDist (npFloat : Bool) (before after : List ℝ) (movingCost : ℝ) (validate : Bool) : Py ℝ :=
  let checked : Py Unit := if validate then (match validateDistribution npFloat before with
    | .error e => .error e
    | .ok _ => validateDistribution npFloat after) else .ok ()
  match checked with
  | .error e => .error e
  | .ok _ =>
    if before.length = after.length then
      if 0 < movingCost then .ok (movingCost * ((after.zip before).map fun p => |p.1 - p.2|).sum) else .error .assertion
    else .error .assertion

/-- loop of `QualityEstimator.kl_div` (nlcodec/qestim.py:73-78) -/
noncomputable def klLoop : List (ℝ × ℝ) → ℝ → Py ℝ
  | [], total => .ok total
  | (p, q) :: rest, total =>
    if 0 < p then
      if 0 < q then klLoop rest (total + p * Real.log (p / q)) else .error .assertion
    else klLoop rest total

/-- `QualityEstimator.kl_div(base, distr)` (nlcodec/qestim.py:61-78); `zip` stops at the shorter argument -/
noncomputable def klDiv (base distr : List ℝ) : Py ℝ := klLoop (base.zip distr) 0

/-- `QualityEstimator.js_div(base, distr)` (nlcodec/qestim.py:80-87) -/
noncomputable def jsDiv (npFloat : Bool) (base distr : List ℝ) : Py ℝ :=
  match validateDistribution npFloat base with
  | .error e => .error e
  | .ok _ => match validateDistribution npFloat distr with
    | .error e => .error e
    | .ok _ =>
      if base.length = distr.length then
        let middle := (base.zip distr).map fun p => 1 / 2 * (p.1 + p.2)
        match klDiv base middle with
        | .error e => .error e
        | .ok a => match klDiv distr middle with
          | .error e => .error e
          | .ok b => .ok (1 / 2 * (a + b))
      else .error .assertion

/-! ## Estimates -/

/-- `CodecQuality` (nlcodec/qestim.py:21-27) -/
structure CodecQuality where
  nTypes : Nat
  imbalance : Option ℚ
  nTokens : Int
  meanSeqLen : ℚ
  unkCount : Int
  deriving DecidableEq

/-- `stats[tok] += 1` with Python's negative indices (nlcodec/qestim.py:96) -/
def bump (stats : List Int) (tok : Int) : Py (List Int) :=
  match pyIndex stats tok with
  | .error e => .error e
  | .ok v => .ok (stats.set (if tok < 0 then tok + stats.length else tok).toNat (v + 1))

/-- inner loop (nlcodec/qestim.py:95-96) -/
def bumpAll : List Int → List Int → Py (List Int)
  | [], stats => .ok stats
  | t :: ts, stats => match bump stats t with
    | .error e => .error e
    | .ok stats' => bumpAll ts stats'

/-- outer loop over the lazily encoded lines (nlcodec/qestim.py:36, 92-96): statistics and number of sequences -/
def statsLoop (s : Scheme) : List Str → List Int → Nat → Py (List Int × Nat)
  | [], stats, n => .ok (stats, n)
  | l :: ls, stats, n => match s.encode l with
    | .error e => .error e
    | .ok ids => match bumpAll ids stats with
      | .error e => .error e
      | .ok stats' => statsLoop s ls stats' (n + 1)

/-- `self.codec.unk_idx`: set for schemes with reserved types (nlcodec/codec.py:190-192), -1 for the class scheme (541), missing in the byte
scheme, whose constructor passes `has_reserved=False` (nlcodec/codec.py:574-578) -/
def Scheme.unkIdx (s : Scheme) : Py Int := match s.kind with
  | .byte => .error .attr
  | .clasz => .ok (-1)
  | _ => .ok 1

/-- `QualityEstimator(codec).estimate(lines)` (nlcodec/qestim.py:35-37, 89-113) -/
def estimate (s : Scheme) (lines : List Str) : Py CodecQuality :=
  match statsLoop s lines (List.replicate s.table.length 0) 0 with
  | .error e => .error e
  | .ok (stats, nSeqs) =>
    let nToks := isum stats
    if nSeqs = 0 then .error .zeroDiv
    else match s.unkIdx with
      | .error e => .error e
      | .ok u => match pyIndex stats u with
        | .error e => .error e
        | .ok unk => match emdSimple (stats.map fun (x : Int) => (x : ℚ)) 1 with
          | .error e => .error e
          | .ok imb => .ok ⟨s.table.length, imb, nToks, (nToks : ℚ) / nSeqs, unk⟩

end Verif
