import Verif.Recover.Noise
import Verif.Generators.WrappersProps

/-!
# C137: consistency of NOTEARS: specification
-/

namespace Verif.Recover

open MeasureTheory ProbabilityTheory Verif.Notears Verif.Generators

/-- The array with the given columns, as `generate_continuous_data` returns it: `structure/data_generators/wrappers.py:100`. -/
def asData {n : ℕ} (cols : List (Col n)) : Data ℝ where
  rows := n
  cols := cols.length
  entry i j := cols[j]?.bind fun c => if h : i < n then some (c ⟨i, h⟩) else none

/-- The weight of the edge from the `i`-th to the `j`-th node, 0 if there is none. -/
noncomputable def weights {N : Type} [DecidableEq N] (g : SemGraph N) (i j : ℕ) : ℝ :=
  ((g.edges.find? fun e => g.nodes[i]? = some e.1 ∧ g.nodes[j]? = some e.2.1).bind (·.2.2)).getD 0

/-- The learned graph has exactly the edges of the linear equations with the weights `V`, with nearly the same weights. -/
def SameEdges (d : ℕ) (V : ℕ → ℕ → ℝ) (ε : ℝ) (L : Verif.Notears.Graph ℕ ℝ) : Prop :=
  (∀ i j, (∃ x o, (⟨i, j, x, o⟩ : Edge ℕ ℝ) ∈ L.edges) ↔ i < d ∧ j < d ∧ V i j ≠ 0) ∧
  ∀ i j x o, (⟨i, j, x, o⟩ : Edge ℕ ℝ) ∈ L.edges → |x - V i j| < ε

/-- On the array `X`, `from_numpy` learns the equations with the weights `V` up to `ε`: always if the optimiser does not miss these
equations, no warning is given, `h_tol` is at most `δ`, and the weights are not too close to `w_threshold`. -/
def Learns (X : Data ℝ) (V : ℕ → ℕ → ℝ) (ε δ : ℝ) : Prop :=
  ∀ (minimize : Minimizer ℝ) (fuel : ℕ) (a : Params ℝ ℕ) (L : Verif.Notears.Graph ℕ ℝ), RespectsBounds minimize →
    notears minimize fuel X a = .ok L → a.maxIter ≠ 0 → NotWorse (problem X) minimize (box X.cols a.tabu) (rowMajor X.cols V) →
    fromNumpyWarns (problem X) minimize fuel X a = false → a.hTol ≤ δ → ε ≤ a.wThreshold →
    (∀ i < X.cols, ∀ j < X.cols, V i j ≠ 0 → a.wThreshold + ε ≤ |V i j|) → SameEdges X.cols V ε L

/-- The same for `from_numpy_lasso`; the penalty must be small. -/
def LearnsLasso (X : Data ℝ) (V : ℕ → ℕ → ℝ) (ε δ : ℝ) : Prop :=
  ∀ (minimize : Minimizer ℝ) (fuel : ℕ) (beta : ℝ) (a : Params ℝ ℕ) (L : Verif.Notears.Graph ℕ ℝ) (w₀ : List ℝ), RespectsBounds minimize →
    notearsLasso minimize fuel beta X a = .ok L → a.maxIter ≠ 0 →
    (∀ i < X.cols, ∀ j < X.cols, splitMatrix X.cols w₀ i j = V i j) → w₀.sum = absSum X.cols V → 0 ≤ beta → beta * absSum X.cols V ≤ δ →
    NotWorse (problemLasso beta X) minimize (boxLasso X.cols a.tabu) w₀ →
    fromNumpyLassoWarns (problemLasso beta X) minimize fuel X a = false → a.hTol ≤ δ → ε ≤ a.wThreshold →
    (∀ i < X.cols, ∀ j < X.cols, V i j ≠ 0 → a.wThreshold + ε ≤ |V i j|) → SameEdges X.cols V ε L

/-- The rows of errors are independent and have the same distribution, and the errors for different columns are uncorrelated and of
the same size `v`. -/
structure EqualRows {Ω : Type} [MeasurableSpace Ω] (P : Measure Ω) (d : ℕ) (v : ℝ) (R : ℕ → Ω → Fin d → ℝ) : Prop where
  indep : Pairwise fun i i' => R i ⟂ᵢ[P] R i'
  ident : ∀ i, IdentDistrib (R i) (R 0) P P
  square : ∀ j, MemLp (fun ω => R 0 ω j) 2 P
  product : ∀ j k, ∫ ω, R 0 ω j * R 0 ω k ∂P = if j = k then v else 0

end Verif.Recover
