import Verif.Notears.WitnessObjective
import Verif.Notears.PropsOptimal
import Verif.Dynotears.Optimal
import Verif.Pytorch.Optimal

/-!
# Concrete cases for C86
-/

namespace Verif.Notears.Witness

open Matrix Finset

/-- An optimiser that goes to `w` if that is within the bounds and not worse, else stays. -/
noncomputable def better (w : List ℝ) : Minimizer ℝ := fun _ f _ s bnds =>
  open Classical in if InBox bnds w ∧ f w ≤ f s then w else s

theorem better_respects (w : List ℝ) : RespectsBounds (better w) := by
  intro k f g s bnds h
  unfold better
  split_ifs with h1
  · exact h1.1
  · exact h

/-- For every problem and every point within the bounds there is an optimiser that does not miss it. -/
theorem better_notWorse (P : Problem ℝ) {bnds : List (Bound ℝ)} {w : List ℝ} (hw : InBox bnds w) : NotWorse P (better w) bnds w := by
  intro k rho alpha start _ _ _
  unfold better
  split_ifs with h
  · exact le_refl _
  · push Not at h
    exact (h hw).le

/-- The hypotheses of `notears_best` and `notears_converges` are met for all finite data with at least one row and column, with the
optimiser that does not miss given permitted acyclic weights. -/
example (X : Data ℝ) (a : Params ℝ ℕ) (hX : X.finite = true ∧ X.rows * X.cols ≠ 0) (hmax : a.maxIter ≠ 0) (V : ℕ → ℕ → ℝ)
    (hV : AcyclicWeights X.cols V) (hp : ∀ i < X.cols, ∀ j < X.cols, V i j ≠ 0 → Permitted a.tabu i j) :
    ∃ g, notears (better (rowMajor X.cols V)) 21 X a = .ok g ∧ ∃ W : ℕ → ℕ → ℝ,
      (∀ i j x o, (⟨i, j, x, o⟩ : Edge ℕ ℝ) ∈ g.edges ↔ i < X.cols ∧ j < X.cols ∧ W i j = x ∧ x ≠ 0 ∧
        a.wThreshold < |x| ∧ o = "unknown") ∧ squaredError X W ≤ squaredError X V := by
  obtain ⟨g, hg⟩ := notears_total (better (rowMajor X.cols V)) X a hX
  obtain ⟨W, h1, h2⟩ := notears_best (better_respects _) (hg 21 (le_refl _)) hmax
  exact ⟨g, hg 21 (le_refl _), W, h1, h2 V hV (better_notWorse _ (box_permitted hp))⟩

/-- No edges into column 0. -/
def tabu0 : Tabu ℕ := ⟨none, none, some [0]⟩

theorem box_tabu0 : box 2 tabu0 = [(some 0, some 0), (none, none), (some 0, some 0), (some 0, some 0)] := by
  simp [box, cells, List.range_succ, bound, tabu0]

theorem error2 (x : ℝ) : squaredError data2 (reshape 2 [0, x, 0, 0]) = (1 + (1 - x) ^ 2) / 2 := by
  simp [squaredError, data2, Data.val, reshape, Finset.sum_range_succ]

theorem score2 (x : ℝ) : expScore (mat 2 [0, x, 0, 0]) = 0 := by
  rw [expScore_eq_zero_iff]
  have key : ∀ i j : Fin 2, Relation.TransGen (fun a b => mat 2 [0, x, 0, 0] a b ≠ 0) i j → i < j := by
    intro i j h
    induction h with
    | single h => revert h; rename_i b; fin_cases i <;> fin_cases b <;> simp [mat, reshape]
    | tail _ h ih =>
      rename_i b c _
      refine lt_trans ih ?_
      revert h; fin_cases b <;> fin_cases c <;> simp [mat, reshape]
  intro i hi
  exact lt_irrefl _ (key i i hi)

theorem func2 (rho alpha x : ℝ) : (problem data2).func rho alpha [0, x, 0, 0] = (((1 + (1 - x) ^ 2) / 2 : ℝ) : WithTop ℝ) := by
  rw [(problem_penalised data2).func]
  congr 1
  change squaredError data2 (reshape 2 [0, x, 0, 0]) + (1 / 2 * rho * expScore (mat 2 [0, x, 0, 0]) ^ 2 +
    alpha * expScore (mat 2 [0, x, 0, 0])) = _
  rw [error2, score2]
  ring

/-- The optimiser that goes to the weight 1 finds minima of the problem with these data. -/
theorem jump_minima : FindsMinima (problem data2) (jump [0, 1, 0, 0]) (box 2 tabu0) := by
  intro w₀ hw k rho alpha start _ _ _
  rw [box_tabu0] at hw ⊢
  have hj : InBox [(some 0, some 0), (none, none), (some 0, some 0), (some 0, some 0)] ([0, 1, 0, 0] : List ℝ) := by simp [InBox]
  unfold jump
  rw [if_pos hj]
  obtain ⟨x, rfl⟩ : ∃ x, w₀ = [0, x, 0, 0] := by
    unfold InBox at hw
    match w₀, hw with
    | [a, b, c, d], hw =>
      simp at hw
      exact ⟨b, by rw [le_antisymm hw.1.2 hw.1.1, le_antisymm hw.2.1.2 hw.2.1.1, le_antisymm hw.2.2.2 hw.2.2.1]⟩
  rw [func2, func2, WithTop.coe_le_coe]
  have := sq_nonneg (1 - x)
  norm_num
  linarith

/-- The hypotheses of `notears_minimum` are met, and the graph learned has the edge with the best weight. -/
example : ∃ g, notears (jump [0, 1, 0, 0]) 21 data2 ⟨100, 1 / 10 ^ 8, 0, tabu0⟩ = .ok g ∧
    (∀ V, AcyclicWeights 2 V → (∀ i < 2, ∀ j < 2, V i j ≠ 0 → Permitted tabu0 i j) →
      squaredError data2 g.weight ≤ squaredError data2 V) := by
  obtain ⟨g, hg⟩ := notears_total (jump [0, 1, 0, 0]) data2 ⟨100, 1 / 10 ^ 8, 0, tabu0⟩ ⟨data2_finite, by decide⟩
  refine ⟨g, hg 21 (le_refl _), fun V hV hp => ?_⟩
  exact notears_minimum (jump_respects _) (hg 21 (le_refl _)) (by decide) jump_minima rfl V hV hp

/-- The hypotheses of `notears_converges` are met with the default tolerance: no warning. -/
example : fromNumpyWarns (problem data2) (jump [0, 1, 0, 0]) 21 data2 ⟨100, 1 / 10 ^ 8, 1, tabu0⟩ = false ∧
    meanSquare data2 = 2 := by
  obtain ⟨g, hg⟩ := notears_total (jump [0, 1, 0, 0]) data2 ⟨100, 1 / 10 ^ 8, 1, tabu0⟩ ⟨data2_finite, by decide⟩
  have hms : meanSquare data2 = 2 := by simp [meanSquare, data2, Data.val]
  refine ⟨(notears_converges (jump_respects _) (hg 21 (le_refl _)) (by decide) (jump_minima _ (box_permitted ?_)) ?_ ?_ ?_).1, hms⟩
  · intro i _ j _ h; exact absurd rfl h
  · positivity
  · rw [hms]; norm_num
  · rw [hms]; norm_num

/-! ### Dynamic structure learning -/

open Verif.Dynotears in
/-- The hypotheses of `dynotears_best` are met for all data of suitable shape. -/
example (lambdaW lambdaA : ℝ) (hW : 0 ≤ lambdaW) (hA : 0 ≤ lambdaA) (X Xlags : Data ℝ) (a : Dynotears.Params ℝ ℕ) (hS : Shapes X Xlags)
    (hmax : a.maxIter ≠ 0) (v : ℕ → ℕ → ℕ → ℝ) (hv : AcyclicWeights X.cols (v 0))
    (hp : ∀ k ≤ Xlags.cols / X.cols, ∀ i < X.cols, ∀ j < X.cols, v k i j ≠ 0 → Dynotears.Permitted a.tabu k i j) :
    ∃ r, dynotears (better (splitVec X.cols (Xlags.cols / X.cols) v)) 21 lambdaW lambdaA X Xlags a = .ok r ∧
      ∃ w : ℕ → ℕ → ℕ → ℝ, IsDynGraph ((List.range X.cols).map Str.natStr) (Xlags.cols / X.cols) w a.wThreshold "unknown" r.1 ∧
        errorDyn lambdaW lambdaA X Xlags (Xlags.cols / X.cols) w ≤ errorDyn lambdaW lambdaA X Xlags (Xlags.cols / X.cols) v := by
  obtain ⟨s, hs, -⟩ := learnLoop_terminates (P := Dynotears.problem lambdaW lambdaA X Xlags)
    (minimize := better (splitVec X.cols (Xlags.cols / X.cols) v)) (bnds := Dynotears.bounds a.tabu X.cols (Xlags.cols / X.cols))
    (fun _ => WithTop.coe_ne_top) (2 * (Xlags.cols / X.cols + 1) * X.cols ^ 2) a.maxIter a.hTol (le_refl 21)
  have hok := fromNumpyDynamicW_ok.2 ⟨hS, s, hs, rfl⟩
  obtain ⟨w, h1, h2⟩ := dynotears_best (better_respects _) hok hmax hW hA
  exact ⟨_, hok, w, h1, h2 v hv (better_notWorse _ (splitVec_box hp))⟩

/-! ### PyTorch -/

open Verif.Pytorch in
/-- The hypotheses of the theorems for the PyTorch version are met for all data, types and arguments that are accepted, and all parameters
within the bounds. -/
example {X : Frame} {x : Args ℕ} {p : Prep} {init : ℕ → ℝ} (hwf : X.WF) (hd : SchemaDict x.schema)
    (hp : prepareChecked X x.schema x.tabu = .ok p) (hv : (archOf x p.data.cols).valid = true) (hr : lossRaises p.encs = false)
    (hmax : x.maxIter ≠ 0) {w₀ : List ℝ} (hbox : InBox (boundsOf (archOf x p.data.cols) p.tabu) w₀)
    (hac : ∀ u, ¬ Relation.TransGen (WeightEdge (archOf x p.data.cols) w₀ p.encs) u u) :
    ∃ g, Pytorch.fromNumpy (better w₀) init 17 X x = .ok g ∧
      penalisedLoss g.arch g.encs p.realRows x.lasso x.ridge g.params ≤ penalisedLoss g.arch g.encs p.realRows x.lasso x.ridge w₀ := by
  obtain ⟨s, hs, -⟩ := fit_terminates (P := torchProblem (archOf x p.data.cols) p.encs (p.data.rows.map realRow) x.lasso x.ridge)
    (minimize := better w₀) (bnds := boundsOf (archOf x p.data.cols) p.tabu) (fun _ => WithTop.coe_ne_top)
    (initParams (archOf x p.data.cols) init) x.maxIter (le_refl 17)
  have hok := Pytorch.fromNumpy_eq hp hv hr hs
  refine ⟨_, hok, ?_⟩
  exact fromNumpy_best (better_respects _) hwf hd hok hmax hp (Pytorch.inBox_length hbox) hac (better_notWorse _ hbox)

end Verif.Notears.Witness
