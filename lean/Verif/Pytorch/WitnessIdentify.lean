import Verif.Pytorch.Identify
import Verif.Pytorch.LearnExamples

/-!
# Concrete cases for C133
-/

namespace Verif.Pytorch

open Finset
open Verif.Notears (Minimizer RespectsBounds NotWorse EqualErrors AcyclicWeights InBox)

/-- Data that follow `x0 = 3 + e0`, `x1 = 5 + 2 x0 + e1` with errors 1 and -1. -/
def lineFrame : Frame := ⟨2, [[4, 14], [4, 12], [2, 10], [2, 8]]⟩

/-- The weight 2 from column 0 to column 1. -/
noncomputable def lineWeights (i j : ℕ) : ℝ := if i = 0 ∧ j = 1 then 2 else 0

/-- No hidden layers, with bias. -/
noncomputable def lineArgs : Args ℕ := { useBias := true, wThreshold := some (1 / 2), lasso := 0 }

theorem line_mean : lineFrame.mean 0 = 3 ∧ lineFrame.mean 1 = 11 := by
  constructor <;> norm_num [Frame.mean, lineFrame, realRow, Finset.sum_range_succ]

theorem line_acyclic : AcyclicWeights 2 lineWeights := by
  have key : ∀ i j : Fin 2, Relation.TransGen (fun a b : Fin 2 => lineWeights a b ≠ 0) i j → i = 0 ∧ j = 1 := by
    have hs : ∀ a b : Fin 2, lineWeights a b ≠ 0 → a = 0 ∧ b = 1 := by
      intro a b hab
      fin_cases a <;> fin_cases b <;> simp [lineWeights] at hab ⊢
    intro i j h
    induction h with
    | single h => exact hs _ _ h
    | tail _ h ih => exact ⟨ih.1, (hs _ _ h).2⟩
  intro i hi
  obtain ⟨h1, h2⟩ := key i i hi
  rw [h1] at h2
  exact absurd h2 (by decide)

theorem line_errors : EqualErrors (lineFrame.real true) lineWeights 1 0 := by
  obtain ⟨m0, m1⟩ := line_mean
  intro j hj k hk
  change j < 2 at hj
  change k < 2 at hk
  have hr : ∀ i j, (lineFrame.real true).residual lineWeights i j = (realRow (lineFrame.rows.getD i []) j - lineFrame.mean j) -
      ∑ k ∈ range 2, (realRow (lineFrame.rows.getD i []) k - lineFrame.mean k) * lineWeights k j := fun i j => rfl
  have hp : (lineFrame.real true).residualProduct lineWeights j k =
      (∑ i ∈ range 4, (lineFrame.real true).residual lineWeights i j * (lineFrame.real true).residual lineWeights i k) / (4 : ℕ) := rfl
  rw [hp]
  simp only [hr]
  rw [lineFrame] at m0 m1
  interval_cases j <;> interval_cases k <;>
    norm_num [Finset.sum_range_succ, lineWeights, m0, m1, lineFrame, realRow]

/-- The hypotheses of `fromNumpy_recovers` and `fromNumpy_linear_converges` can be met, with every `δ`: for `lineFrame` an optimiser that
finds the equations gives exactly the edge from column 0 to column 1. -/
theorem recovers_example : AcyclicWeights 2 lineWeights ∧ lineFrame.WF ∧ lineFrame.cols = 2 ∧ SchemaDict lineArgs.schema ∧
    AllContinuous lineFrame lineArgs.schema ∧ (hiddenUnits lineArgs.hidden).headD 0 = 0 ∧
    EqualErrors (lineFrame.real lineArgs.useBias) lineWeights 1 0 ∧ penalty 2 lineArgs.lasso lineArgs.ridge lineWeights = 0 ∧
    ∃ (minimize : Minimizer ℝ) (g : Learned ℕ), RespectsBounds minimize ∧ fromNumpy minimize (fun _ => 0) 17 lineFrame lineArgs = .ok g ∧
      NotWorse (torchProblem g.arch g.encs (lineFrame.rows.map realRow) lineArgs.lasso lineArgs.ridge) minimize
        (boundsOf g.arch lineArgs.tabu) (linearParams 2 lineArgs.useBias lineWeights (lineFrame.intercept lineWeights)) ∧
      g.score = 0 ∧ (∀ i j, (∃ e ∈ g.edges, e.src = i ∧ e.dst = j) ↔ i = 0 ∧ j = 1) ∧
      ∀ e ∈ g.edges, |e.meanEffect - 2| < 1 / 2 := by
  have hwf : lineFrame.WF := by unfold Frame.WF; decide +kernel
  have hsd : SchemaDict lineArgs.schema := fun s hs => by cases hs
  have hcont : AllContinuous lineFrame lineArgs.schema := by
    intro q hq
    change q ∈ (List.range 2).map (fun i => (i, Alias.cont)) at hq
    obtain ⟨i, -, rfl⟩ := List.mem_map.1 hq
    rfl
  have hlin : (hiddenUnits lineArgs.hidden).headD 0 = 0 := rfl
  have hpen : penalty 2 lineArgs.lasso lineArgs.ridge lineWeights = 0 := by simp [penalty, lineArgs]
  let w0 := linearParams 2 true lineWeights (lineFrame.intercept lineWeights)
  let a : Arch := archOf lineArgs 2
  have hlen : w0.length = a.sizes.sum := by
    rw [linearParams_length, sizes_linear (a := a) rfl]
    rfl
  have hbox : InBox (boundsOf a lineArgs.tabu) w0 := by
    refine inBox_permitted hlen ?_
    intro i j k hi hj hk hne
    have hm : a.m1 = 1 := by decide
    rw [hm] at hk
    obtain rfl : k = 0 := by omega
    change i < 2 at hi
    change j < 2 at hj
    have : w0.getD (a.pos j 0 i) 0 = lineWeights i j := by
      rw [← linearParams_weight 2 true lineWeights (lineFrame.intercept lineWeights) hi hj]
      unfold weightOf Arch.pos
      rw [hm, mul_one, add_zero]
      rfl
    rw [this] at hne
    have h2 : i = 0 ∧ j = 1 := by
      by_contra hn
      exact hne (if_neg hn)
    obtain ⟨rfl, rfl⟩ := h2
    exact ⟨by decide, by simp [lineArgs], by simp [lineArgs], by simp [lineArgs]⟩
  have hgo : ∀ k f g w, goTo w0 k f g w (boundsOf a lineArgs.tabu) = w0 := by
    intro k f g w
    unfold goTo
    rw [if_pos hbox]
  have hp : prepareChecked lineFrame lineArgs.schema lineArgs.tabu =
      .ok ⟨(schemaOf lineFrame lineArgs.schema).map fun q => .cont q.1, lineFrame, lineArgs.tabu⟩ := by
    rw [← prepare_cont _ _ _ hcont]
    rfl
  have hlay : Layout ((schemaOf lineFrame lineArgs.schema).map fun q => Enc.cont q.1) 2 a.d := prepare_isLayout hwf hsd hp
  have hscore : hFunc a ((schemaOf lineFrame lineArgs.schema).map fun q => Enc.cont q.1) (a.net w0) = 0 :=
    (hFunc_zero_iff hlay w0).2.2 (linearParams_acyclic hlay rfl rfl line_acyclic)
  obtain ⟨s, hs, hs1, -, -⟩ := fit_first (P := torchProblem a ((schemaOf lineFrame lineArgs.schema).map fun q => Enc.cont q.1)
    (lineFrame.rows.map realRow) lineArgs.lasso lineArgs.ridge) (w := initParams a fun _ => 0) (maxIter := 99) (fuel := 16) hgo
    (c := 0) (by change ((_ : ℝ) : WithTop ℝ) = _; rw [hscore]) (by norm_num)
  have hg := fromNumpy_eq (minimize := goTo w0) (init := fun _ => 0) (fuel := 17) (x := lineArgs) hp (by decide) (by decide) hs
  refine ⟨line_acyclic, hwf, rfl, hsd, hcont, hlin, line_errors, hpen, goTo w0, _, goTo_respects w0, hg, ?_, ?_, ?_⟩
  · intro k rho alpha start _ _ _
    have := hgo k ((torchProblem a ((schemaOf lineFrame lineArgs.schema).map fun q => Enc.cont q.1)
      (lineFrame.rows.map realRow) lineArgs.lasso lineArgs.ridge).func rho alpha) ((torchProblem a ((schemaOf lineFrame lineArgs.schema).map fun q => Enc.cont q.1)
      (lineFrame.rows.map realRow) lineArgs.lasso lineArgs.ridge).grad rho alpha) start
    refine le_of_eq ?_
    exact congrArg _ this
  · change hFunc a _ (a.net s.params) = 0
    rw [hs1]
    exact hscore
  · obtain ⟨δ, hδ, hrec⟩ := fromNumpy_recovers line_acyclic (ε := 1 / 2) (by norm_num)
    have := hrec lineFrame 1 (goTo w0) (fun _ => 0) 17 lineArgs _ (1 / 2) hwf rfl hsd hcont hlin one_pos
      (fun j hj k hk => (line_errors j hj k hk).trans (by linarith)) (goTo_respects w0) hg (by decide) (le_refl _) (le_refl _)
      (by rw [hpen]; linarith) (by
        intro k rho alpha start _ _ _
        have := hgo k ((torchProblem a ((schemaOf lineFrame lineArgs.schema).map fun q => Enc.cont q.1)
          (lineFrame.rows.map realRow) lineArgs.lasso lineArgs.ridge).func rho alpha) ((torchProblem a ((schemaOf lineFrame lineArgs.schema).map fun q => Enc.cont q.1)
          (lineFrame.rows.map realRow) lineArgs.lasso lineArgs.ridge).grad rho alpha) start
        refine le_of_eq ?_
        exact congrArg _ this) (by
        change hFunc a _ (a.net s.params) ≤ δ
        rw [hs1]
        exact le_of_eq_of_le hscore hδ.le) rfl (le_refl _) (by
        intro i _ j _ hne
        unfold lineWeights at hne ⊢
        by_cases h2 : i = 0 ∧ j = 1
        · rw [if_pos h2]; norm_num
        · rw [if_neg h2] at hne; exact absurd rfl hne)
    have hV : ∀ i j, (i < 2 ∧ j < 2 ∧ lineWeights i j ≠ 0) ↔ i = 0 ∧ j = 1 := by
      intro i j
      unfold lineWeights
      by_cases h2 : i = 0 ∧ j = 1
      · obtain ⟨rfl, rfl⟩ := h2
        norm_num
      · rw [if_neg h2]; simp [h2]
    refine ⟨fun i j => (this.1 i j).trans (hV i j), fun e he => ?_⟩
    have h1 := this.2 e he
    have h2 := (hV _ _).1 ((this.1 e.src e.dst).1 ⟨e, he, rfl, rfl⟩)
    rwa [lineWeights, if_pos h2] at h1

end Verif.Pytorch
