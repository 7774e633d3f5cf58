import Verif.Sklearn.Recover
import Verif.Recover.Spec

/-!
# C154: consistency of the PyTorch version and of DAGRegressor: specification
-/

namespace Verif.Recover

open MeasureTheory ProbabilityTheory Verif.Pytorch Verif.Sklearn Finset
open Verif.Notears (Minimizer RespectsBounds NotWorse TabuNamed)

/-- What remains of column `j` of a row after the linear equation with the weights `V` and the constant `b j`. -/
noncomputable def rowError (d : ℕ) (V : ℕ → ℕ → ℝ) (b : ℕ → ℝ) (r : List ℚ) (j : ℕ) : ℝ :=
  realRow r j - (b j + ∑ k ∈ range d, V k j * realRow r k)

/-- Rows of `d` numbers that are independent draws from one distribution, with the means `μ`.  They follow the linear equations with the weights `V` and the constants
`b`, with errors of mean 0 that are uncorrelated and all have the mean square `v`. -/
structure LinearRows {Ω : Type} [MeasurableSpace Ω] (P : Measure Ω) (d : ℕ) (V : ℕ → ℕ → ℝ) (b : ℕ → ℝ) (v : ℝ) (μ : ℕ → ℝ)
    (x : ℕ → Ω → List ℚ) : Prop where
  length : ∀ i ω, (x i ω).length = d
  indep : Pairwise fun i i' => (fun ω (j : Fin d) => realRow (x i ω) j) ⟂ᵢ[P] (fun ω (j : Fin d) => realRow (x i' ω) j)
  ident : ∀ i, IdentDistrib (fun ω (j : Fin d) => realRow (x i ω) j) (fun ω (j : Fin d) => realRow (x 0 ω) j) P P
  square : ∀ j < d, MemLp (fun ω => realRow (x 0 ω) j) 2 P
  mean : ∀ j < d, ∫ ω, realRow (x 0 ω) j ∂P = μ j
  errorMean : ∀ j < d, ∫ ω, rowError d V b (x 0 ω) j ∂P = 0
  errorProduct : ∀ j < d, ∀ k < d, ∫ ω, rowError d V b (x 0 ω) j * rowError d V b (x 0 ω) k ∂P = if j = k then v else 0

/-- The table of the first `n` rows. -/
def firstRows (d n : ℕ) (x : ℕ → List ℚ) : Frame := ⟨d, (List.range n).map x⟩

/-- On the table `X`, the PyTorch version of `from_numpy` without hidden layers learns the equations with the weights `V` and the constants `b` up to `ε`: always if all
columns are continuous, constants are allowed for (`use_bias`) unless they are 0, the penalties and the final score are small and the optimiser does not miss the weights,
every column of every row is predicted nearly as by the equations, and the learned edges are those of the equations with nearly the same effects if `w_threshold` separates
them. -/
def LearnsTorch (X : Frame) (V : ℕ → ℕ → ℝ) (b : ℕ → ℝ) (v : ℝ) (μ : ℕ → ℝ) (ε δ : ℝ) : Prop :=
  ∀ (minimize : Minimizer ℝ) (init : ℕ → ℝ) (fuel : ℕ) (a : Args ℕ) (g : Learned ℕ),
    SchemaDict a.schema → AllContinuous X a.schema → (hiddenUnits a.hidden).headD 0 = 0 → (a.useBias = true ∨ ∀ j < X.cols, b j = 0) →
    RespectsBounds minimize → fromNumpy minimize init fuel X a = .ok g → a.maxIter ≠ 0 → 0 ≤ a.lasso → 0 ≤ a.ridge →
    penalty X.cols a.lasso a.ridge V ≤ δ →
    NotWorse (torchProblem g.arch g.encs (X.rows.map realRow) a.lasso a.ridge) minimize (boundsOf g.arch a.tabu)
      (linearParams X.cols a.useBias V (X.intercept V)) → g.score ≤ δ →
    (∀ (row : ℕ → ℝ), ∀ j < X.cols, |forward g.arch (g.arch.net g.params) row j - (b j + ∑ k ∈ range X.cols, V k j * row k)| ≤
      ε * (√v + ∑ k ∈ range X.cols with k ≠ j, |row k - if a.useBias then μ k else 0|)) ∧
    ∀ t : ℝ, a.wThreshold = some t → ε ≤ t → (∀ i < X.cols, ∀ j < X.cols, V i j ≠ 0 → t + ε ≤ |V i j|) →
      (∀ i j, (∃ e ∈ g.edges, e.src = i ∧ e.dst = j) ↔ i < X.cols ∧ j < X.cols ∧ V i j ≠ 0) ∧
      ∀ e ∈ g.edges, |e.meanEffect - V e.src e.dst| < ε

/-- The same for a `DAGRegressor` that is fitted to a table `X` whose last column is the target: the coefficients are nearly the weights of the equation for the target,
and the predictions for new rows are nearly what this equation gives. -/
def LearnsRegressor (X : Frame) (d : ℕ) (V : ℕ → ℕ → ℝ) (b : ℕ → ℝ) (v : ℝ) (μ : ℕ → ℝ) (ε δ : ℝ) : Prop :=
  ∀ (ext : Ext) (e : Est) (h : Heap) (c : Call) (f : Fit),
    (∀ es, (ext.order es).Perm es) → c.WF e h → Fits ext e h c f → c.data h = X →
    (∀ r, e.params.schema = some r → targetName c.yname ∉ (h.schemas.getD r []).map Prod.fst) →
    NoSuffix (c.cols ++ [targetName c.yname]) → (∀ p ∈ usedSchema e h c.cols, p.2 = .cont) → e.targetType = some .cont →
    (hiddenUnits e.params.hidden).headD 0 = 0 → e.params.standardize = false → (e.params.fitIntercept = true ∨ ∀ j < d + 1, b j = 0) →
    RespectsBounds ext.minimize → e.params.maxIter ≠ 0 → 0 ≤ e.params.alpha → 0 ≤ e.params.beta →
    penalty (d + 1) e.params.alpha e.params.beta V ≤ δ →
    (∀ t, TabuNamed (c.cols ++ [targetName c.yname]) (c.tabu e h) t →
      NotWorse (torchProblem f.graph.arch f.graph.encs (X.rows.map realRow) e.params.alpha e.params.beta) ext.minimize
        (boundsOf f.graph.arch t) (linearParams (d + 1) e.params.fitIntercept V (X.intercept V))) →
    f.graph.score ≤ δ →
    (e.params.enforceDag = false → (e.params.threshold ≤ 0 ∨ ∀ k < d, V k d ≠ 0 → e.params.threshold + ε ≤ |V k d|) →
      ∀ k < d, |(coef f).getD k 0 - V k d| < ε ∧ (ε ≤ e.params.threshold → ((coef f).getD k 0 = 0 ↔ V k d = 0))) ∧
    ∀ (isInt : Bool) (Z : List (List ℚ)), (∀ r ∈ Z, r.length = d) →
      ∃ ys, basePredict { e with fitted := some f } isInt Z = .ok ys ∧
        List.Forall₂ (fun r y => ∃ p : ℝ, y = [p] ∧ |p - (b d + ∑ k ∈ range d, V k d * realRow r k)| ≤
          ε * (√v + ∑ k ∈ range d, |realRow r k - if e.params.fitIntercept then μ k else 0|)) Z ys

end Verif.Recover
