import Mathlib.Algebra.Order.Floor.Semiring
import Mathlib.Algebra.Order.Field.Basic
import Mathlib.Data.List.Sort

/-!
# Model of `causalnex.discretiser.Discretiser`

`K` are the numbers (exact).  Arrays are lists (`flatten` has been applied to the data).
-/

namespace Verif.Discretiser

/-- Exceptions. -/
inductive Err
  | valueError | runtimeError | zeroDivision | indexError | typeError
  deriving DecidableEq, Repr

/-- The attributes of a `Discretiser`: `discretiser/discretiser.py:92-100`. -/
structure Disc (K : Type) where
  method : String := "uniform"
  numBuckets : Option ℤ := none
  outlier : Option K := none
  numeric : Option (List K) := none
  percentiles : Option (List K) := none
  deriving DecidableEq

section
variable {K : Type} [Field K] [LinearOrder K]

/-- `__init__`: `discretiser/discretiser.py:92-157`. -/
def create (method : String) (numBuckets : Option ℤ) (outlier : Option K)
    (numeric percentiles : Option (List K)) : Except Err (Disc K) :=
  let d : Disc K := ⟨method, numBuckets, outlier, numeric, percentiles⟩
  if method ∉ ["uniform", "quantile", "outlier", "fixed", "percentiles"] then .error .valueError
  else if method ∈ ["uniform", "quantile"] ∧ numBuckets.isNone then .error .valueError
  else if method = "outlier" ∧ outlier.isNone then .error .valueError
  else if outlier.any (fun o => ¬ (0 ≤ o ∧ o < 1 / 2)) then .error .valueError
  else if method = "fixed" ∧ numeric.isNone then .error .valueError
  else if numeric.any (fun l => l.insertionSort (· ≤ ·) ≠ l) then .error .valueError
  else if method = "percentiles" ∧ percentiles.isNone then .error .valueError
  else if percentiles.any (fun l => ¬ l.all fun p => 0 ≤ p ∧ p ≤ 1) then .error .valueError
  else if percentiles.any (fun l => l.insertionSort (· ≤ ·) ≠ l) then .error .valueError
  else if method = "fixed" then .ok { d with numeric := numeric }
  else .ok d

variable [FloorSemiring K]

/-- `np.quantile(x, q)` for one `q` and sorted `x`: linear interpolation between order statistics
(numpy, external). -/
def quantile1 (x : List K) (q : K) : Except Err K :=
  if ¬ (0 ≤ q ∧ q ≤ 1) then .error .valueError
  else if x = [] then .error .indexError
  else
    let h : K := q * ((x.length - 1 : ℕ) : K)
    let lo := ⌊h⌋₊
    let hi := min (lo + 1) (x.length - 1)
    .ok (x.getD lo 0 + (x.getD hi 0 - x.getD lo 0) * (h - (lo : K)))

/-- `np.quantile(x, qs)` (numpy, external). -/
def quantile (x qs : List K) : Except Err (List K) := qs.mapM (quantile1 x)

/-- `np.percentile(x, ps)` (numpy, external). -/
def percentile (x ps : List K) : Except Err (List K) := quantile x (ps.map fun p => p / 100)

/-- `range(b)` for a Python integer. -/
def pyRange (b : ℤ) : List ℕ := List.range b.toNat

/-- The split points computed by `fit`: `discretiser/discretiser.py:173-197`. -/
def fitPoints (d : Disc K) (data : List K) : Except Err (List K) :=
  let x := data.insertionSort (· ≤ ·)
  if d.method = "uniform" then
    match d.numBuckets, x.max?, x.min? with
    | none, _, _ => .error .typeError
    | some b, some mx, some mn =>
      let width : K := (mx - mn) / (b : K)
      .ok ((pyRange (b - 1)).map fun n : ℕ => mn + width * ((n : K) + 1))
    | some _, _, _ => .error .valueError
  else if d.method = "quantile" then
    match d.numBuckets with
    | none => .error .typeError
    | some b =>
      if b = 0 then .error .zeroDivision
      else
        let width : K := 1 / (b : K)
        quantile x ((pyRange (b - 1)).map fun n : ℕ => width * ((n : K) + 1))
  else if d.method = "outlier" then
    match d.outlier with
    | none => .error .typeError
    | some o => quantile x [o, 1 - o]
  else if d.method = "percentiles" then
    match d.percentiles with
    | none => .error .typeError
    | some ps => percentile x (ps.map fun p => p * 100)
  else .error .runtimeError

/-- `fit`: `discretiser/discretiser.py:159-199`.  `data.flatten()` is a copy: the caller's data are
not changed by the sorting. -/
def fit (d : Disc K) (data : List K) : Disc K × Except Err Unit :=
  match fitPoints d data with
  | .error e => (d, .error e)
  | .ok l => ({ d with numeric := some l }, .ok ())

/-- `np.digitize(x, bins, right=False)` for one value and increasing bins: `searchsorted` with
`side="right"`, a binary search between `lo` and `hi` (numpy, external).  `fuel` bounds the number of
halvings; `bins.length` is enough. -/
def searchRight (bins : List K) (x : K) : ℕ → ℕ → ℕ → ℕ
  | 0, lo, _ => lo
  | fuel + 1, lo, hi =>
    if lo < hi then
      let mid := lo + (hi - lo) / 2
      if bins.getD mid 0 ≤ x then searchRight bins x fuel (mid + 1) hi
      else searchRight bins x fuel lo mid
    else lo

/-- `np.digitize(data, bins, right=False)` (numpy, external): bins have to be monotonic; for
decreasing bins the bins are reversed. -/
def digitize (data bins : List K) : Except Err (List ℕ) :=
  if bins.insertionSort (· ≤ ·) = bins then
    .ok (data.map fun x => searchRight bins x bins.length 0 bins.length)
  else if bins.insertionSort (· ≥ ·) = bins then
    .ok (data.map fun x => bins.length -
      searchRight bins.reverse x bins.length 0 bins.length)
  else .error .valueError

/-- `transform`: `discretiser/discretiser.py:201-213`.  Without split points `np.digitize` raises. -/
def transform (d : Disc K) (data : List K) : Except Err (List ℕ) :=
  match d.numeric with
  | none => .error .typeError
  | some bins => digitize data bins

/-- `fit_transform`, inherited from `TransformerMixin` (sklearn, external):
`discretiser/discretiser.py:36`. -/
def fitTransform (d : Disc K) (data : List K) : Disc K × Except Err (List ℕ) :=
  match fit d data with
  | (d, .error e) => (d, .error e)
  | (d, .ok ()) => (d, transform d data)

end

end Verif.Discretiser
