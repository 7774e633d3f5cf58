import Mathlib.Analysis.SpecialFunctions.Sigmoid
import Mathlib.Analysis.SpecialFunctions.Log.Basic

/-!
# Model of the inverse link functions of the distribution types (C64)

A row of reconstructed data is a list of real numbers (simplification: no floating point).
-/

namespace Verif.Pytorch

/-- A fitted distribution type: position and what was fitted. -/
inductive Fitted
  | cont (idx : ℕ)
  | bin (idx : ℕ)
  | poiss (idx : ℕ)
  | cat (group : List ℕ)
  | ord (idx : ℕ) (logCumOdds : List ℝ)

/-- `np.cumsum`. -/
noncomputable def cumsum : ℝ → List ℝ → List ℝ
  | _, [] => []
  | acc, x :: xs => (acc + x) :: cumsum (acc + x) xs

/-- The log cumulative odds from the counts of the classes: `dist_type/ordinal.py:81-90`. -/
noncomputable def logCumOdds (counts : List ℕ) : List ℝ :=
  let total : ℝ := (counts.map fun c : ℕ => (c : ℝ)).sum
  let classProbs := counts.map fun c : ℕ => (c : ℝ) / total
  let cum := (cumsum 0 classProbs).dropLast
  cum.map fun p => Real.log (p / (1 - p))

/-- `_get_probs` for one row with the latent value `x`: `dist_type/ordinal.py:94-122`.  With a single class, `cum_prob[:, 0]` is an
`IndexError` (`none`). -/
noncomputable def ordProbs (odds : List ℝ) (x : ℝ) : Option (List ℝ) :=
  let cum := odds.map fun c => Real.sigmoid (c - x)
  match cum with
  | [] => none
  | c :: cs => some (c :: (List.zipWith (· - ·) cs (c :: cs).dropLast ++ [1 - (c :: cs).getLast (by simp)]))

/-- `torch.softmax`. -/
noncomputable def softmax (v : List ℝ) : List ℝ := v.map fun a => Real.exp a / (v.map Real.exp).sum

/-- `row[idx] = f(row[idx])`; an index out of range raises (`none`). -/
def mapAt (f : ℝ → ℝ) (idx : ℕ) (row : List ℝ) : Option (List ℝ) := (row[idx]?).map fun a => row.set idx (f a)

/-- `row[group]`. -/
def gather (group : List ℕ) (row : List ℝ) : Option (List ℝ) := group.mapM fun i => row[i]?

/-- `row[group] = vals`. -/
def scatter (group : List ℕ) (vals row : List ℝ) : List ℝ := (group.zip vals).foldl (fun row e => row.set e.1 e.2) row

/-- `inverse_link_function` for one row: `dist_type/continuous.py:58-70`, `binary.py:64-77`, `poisson.py:86-99`,
`categorical.py:249-262`, `ordinal.py:148-160`. -/
noncomputable def inverseLink : Fitted → List ℝ → Option (List ℝ)
  | .cont _, row => some row
  | .bin idx, row => mapAt Real.sigmoid idx row
  | .poiss idx, row => mapAt Real.exp idx row
  | .cat group, row => (gather group row).map fun v => scatter group (softmax v) row
  | .ord idx odds, row => (row[idx]?).bind fun x => ordProbs odds x

/-- All links in turn: `structure/pytorch/core.py:211-212`. -/
noncomputable def inverseLinks : List Fitted → List ℝ → Option (List ℝ)
  | [], row => some row
  | t :: ts, row => (inverseLink t row).bind (inverseLinks ts)

/-- `get_columns` on the result: `dist_type/_base.py:58-72`, `categorical.py:52-65`, `ordinal.py:162-178`. -/
def getColumns : Fitted → List ℝ → Option (List ℝ)
  | .cont idx, row | .bin idx, row | .poiss idx, row => (row[idx]?).map fun a => [a]
  | .cat group, row => gather group row
  | .ord _ _, row => some row

/-! ### Specification -/

/-- The columns of a type. -/
def Fitted.cols : Fitted → List ℕ
  | .cont idx | .bin idx | .poiss idx | .ord idx _ => [idx]
  | .cat group => group

/-- A probability distribution over `k` classes. -/
def IsDistribution (k : ℕ) (p : List ℝ) : Prop := p.length = k ∧ (∀ a ∈ p, 0 < a) ∧ p.sum = 1

end Verif.Pytorch
