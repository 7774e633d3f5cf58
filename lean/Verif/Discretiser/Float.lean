import Verif.Discretiser.Props
import Verif.Float.Mono

/-!
# Model of `causalnex.discretiser.Discretiser` in double precision

The same functions, every arithmetic operation rounding to the nearest double (within the range of normal numbers: no overflow, no underflow,
no NaN).  Comparing and sorting are exact.  What numpy's quantile returns for a quantile in range is a parameter `Q` (external).
-/

namespace Verif.Discretiser

open Verif.Float (rnd IsDouble)

/-- `np.quantile(x, q)` for one `q` and sorted `x` (numpy, external): which quantiles it refuses, and otherwise whatever value it computes. -/
def quantile1F (Q : List ℚ → ℚ → ℚ) (x : List ℚ) (q : ℚ) : Except Err ℚ :=
  if ¬ (0 ≤ q ∧ q ≤ 1) then .error .valueError
  else if x = [] then .error .indexError
  else .ok (Q x q)

/-- `np.quantile(x, qs)` (numpy, external). -/
def quantileF (Q : List ℚ → ℚ → ℚ) (x qs : List ℚ) : Except Err (List ℚ) := qs.mapM (quantile1F Q x)

/-- `np.percentile(x, ps)`, which divides by a hundred (numpy, external). -/
def percentileF (Q : List ℚ → ℚ → ℚ) (x ps : List ℚ) : Except Err (List ℚ) := quantileF Q x (ps.map fun p => rnd (p / 100))

/-- The split points computed by `fit`: `discretiser/discretiser.py:173-197`. -/
def fitPointsF (Q : List ℚ → ℚ → ℚ) (d : Disc ℚ) (data : List ℚ) : Except Err (List ℚ) :=
  let x := data.insertionSort (· ≤ ·)
  if d.method = "uniform" then
    match d.numBuckets, x.max?, x.min? with
    | none, _, _ => .error .typeError
    | some b, some mx, some mn =>
      let width : ℚ := rnd (rnd (mx - mn) / (b : ℚ))
      .ok ((pyRange (b - 1)).map fun n : ℕ => rnd (mn + rnd (width * ((n : ℚ) + 1))))
    | some _, _, _ => .error .valueError
  else if d.method = "quantile" then
    match d.numBuckets with
    | none => .error .typeError
    | some b =>
      if b = 0 then .error .zeroDivision
      else
        let width : ℚ := rnd (1 / (b : ℚ))
        quantileF Q x ((pyRange (b - 1)).map fun n : ℕ => rnd (width * ((n : ℚ) + 1)))
  else if d.method = "outlier" then
    match d.outlier with
    | none => .error .typeError
    | some o => quantileF Q x [o, rnd (1 - o)]
  else if d.method = "percentiles" then
    match d.percentiles with
    | none => .error .typeError
    | some ps => percentileF Q x (ps.map fun p => rnd (p * 100))
  else .error .runtimeError

/-- `fit`: `discretiser/discretiser.py:159-199`. -/
def fitF (Q : List ℚ → ℚ → ℚ) (d : Disc ℚ) (data : List ℚ) : Disc ℚ × Except Err Unit :=
  match fitPointsF Q d data with
  | .error e => (d, .error e)
  | .ok l => ({ d with numeric := some l }, .ok ())

/-- `fit_transform`, inherited from `TransformerMixin` (sklearn, external): `discretiser/discretiser.py:36`.  `transform` does no arithmetic. -/
def fitTransformF (Q : List ℚ → ℚ → ℚ) (d : Disc ℚ) (data : List ℚ) : Disc ℚ × Except Err (List ℕ) :=
  match fitF Q d data with
  | (d, .error e) => (d, .error e)
  | (d, .ok ()) => (d, transform d data)

end Verif.Discretiser
