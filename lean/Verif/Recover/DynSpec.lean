import Verif.Recover.Lags
import Mathlib.Probability.Independence.Basic
import Mathlib.MeasureTheory.Integral.Bochner.Basic

/-!
# C138: consistency of DYNOTEARS: specification
-/

namespace Verif.Recover

open MeasureTheory ProbabilityTheory Verif.Notears Verif.Dynotears Verif.Str

/-- The arrays that `DynamicDataTransformer` makes of a series of `n + p` observations with `d` values each (C36): row `r` holds the
values at time `r + p`, and the values of the `p` times before, the latest first. -/
structure Windows (d p n : ℕ) (x : ℕ → Fin d → ℝ) (X Xlags : Data ℝ) : Prop where
  rows : X.rows = n
  cols : X.cols = d
  lagCols : Xlags.cols = p * d
  now : ∀ r < n, ∀ j : Fin d, X.val r j = x (r + p) j
  lags : ∀ r < n, ∀ k < p, ∀ i : Fin d, Xlags.val r (k * d + i) = x (r + p - (k + 1)) i

/-- The learned graph has exactly the edges of the dynamic equations with the weights `u`, with nearly the same weights: `u 0 i j` is
the effect of the `i`-th variable on the `j`-th one at the same time, `u k i j` the one `k` steps later. -/
def SameEdgesDyn (d p : ℕ) (u : ℕ → ℕ → ℕ → ℝ) (ε : ℝ) (g : Verif.Notears.Graph Str ℝ) : Prop :=
  (∀ e ∈ g.edges, ∃ k ≤ p, ∃ i < d, ∃ j < d, e.src = lagName (natStr i) k ∧ e.dst = lagName (natStr j) 0 ∧ u k i j ≠ 0 ∧
    |e.weight - u k i j| < ε) ∧
  ∀ k ≤ p, ∀ i < d, ∀ j < d, u k i j ≠ 0 → ∃ e ∈ g.edges, e.src = lagName (natStr i) k ∧ e.dst = lagName (natStr j) 0

/-- On the arrays `X` and `Xlags`, `from_numpy_dynamic` learns the equations with the weights `u` up to `ε`: always if the optimiser does
not miss these equations, no warning is given, `h_tol` and the penalty of `u` are at most `δ`, and the weights are not too close to
`w_threshold`. -/
def LearnsDyn (d p : ℕ) (X Xlags : Data ℝ) (u : ℕ → ℕ → ℕ → ℝ) (ε δ : ℝ) : Prop :=
  ∀ (minimize : Minimizer ℝ) (fuel : ℕ) (lambdaW lambdaA : ℝ) (a : Verif.Dynotears.Params ℝ ℕ) (g : Verif.Notears.Graph Str ℝ), RespectsBounds minimize →
    dynotears minimize fuel lambdaW lambdaA X Xlags a = .ok (g, false) → a.maxIter ≠ 0 → 0 ≤ lambdaW → 0 ≤ lambdaA →
    lambdaW * absSum d (u 0) + lambdaA * ∑ k ∈ Finset.range p, absSum d (u (k + 1)) ≤ δ →
    NotWorse (problem lambdaW lambdaA X Xlags) minimize (bounds a.tabu d p) (splitVec d p u) →
    a.hTol ≤ δ → ε ≤ a.wThreshold → (∀ k ≤ p, ∀ i < d, ∀ j < d, u k i j ≠ 0 → a.wThreshold + ε ≤ |u k i j|) → SameEdgesDyn d p u ε g

/-- The errors `e` of a series `x`, from time `p` on, are independent of all earlier values, have mean 0, are uncorrelated and of the same
mean square `v`; fourth moments of the errors and mean squares of the values are at most `C`. -/
structure Innovations {Ω : Type} [MeasurableSpace Ω] (P : Measure Ω) (d p : ℕ) (v C : ℝ) (x e : ℕ → Ω → Fin d → ℝ) : Prop where
  measurable : ∀ t, Measurable (x t)
  indep : ∀ t, p ≤ t → e t ⟂ᵢ[P] (fun ω (s : Fin t) => x s ω)
  mean : ∀ t, p ≤ t → ∀ j, ∫ ω, e t ω j ∂P = 0
  product : ∀ t, p ≤ t → ∀ j k, ∫ ω, e t ω j * e t ω k ∂P = if j = k then v else 0
  fourth : ∀ t, p ≤ t → ∀ j, Integrable (fun ω => e t ω j ^ 4) P ∧ ∫ ω, e t ω j ^ 4 ∂P ≤ C
  square : ∀ t j, Integrable (fun ω => x t ω j ^ 2) P ∧ ∫ ω, x t ω j ^ 2 ∂P ≤ C

end Verif.Recover
