import Verif.Network.Scores
import Verif.Network.EquivalentWitness

/-!
# C147: concrete cases
-/

namespace Verif.Network.EquivalentWitness

open Verif.Network.Witness (int int_injective)
open Verif.Graph (Equivalent EdgeRel)

/-- `0 → 1 ← 2` with the edge `0 → 2`. -/
def filled : List (ℕ × ℕ) := [(0, 1), (2, 1), (0, 2)]

theorem filled_structure : IsStructure [0, 1, 2] filled := ⟨by decide, by decide, by decide⟩

theorem filled_reach : Reach int [0, 1, 2] filled (netOf filled [5, 7]) := by
  have hinit : (init [0, 1, 2] filled : Except Err (Net ℕ ℚ ℚ)) = .ok ⟨nodesOfEdges filled, filled, none, []⟩ := by
    unfold init
    rw [show (Graph.weakComponents _ _).length = 1 by decide, show Graph.isDag _ _ = true by decide]
    rfl
  exact .states (.init hinit) (dict := dict [5, 7]) (by decide) (by decide +kernel) rfl

/-- The probability of the data under the tables fitted to them. -/
def score (E : List (ℕ × ℕ)) (a : FitArgs ℚ) : Except Err ℚ :=
  (cpds (fitCpds int (netOf E [5, 7]) [df] 0 a).1).map fun tables => tablesLikelihood (netOf E [5, 7]) tables df

/-- The hypotheses of `likelihood_mono` can be met, and the probability can increase. -/
example : ∃ tables tables₂, cpds (fitCpds int (netOf clash [5, 7]) [df] 0 {}).1 = .ok tables ∧
    cpds (fitCpds int (netOf filled [5, 7]) [df] 0 {}).1 = .ok tables₂ ∧ 0 < tablesLikelihood (netOf clash [5, 7]) tables df ∧
    tablesLikelihood (netOf clash [5, 7]) tables df ≤ tablesLikelihood (netOf filled [5, 7]) tables₂ df := by
  have hok : (fitCpds int (netOf clash [5, 7]) [df] 0 {}).2.2 = .ok () := by decide +kernel
  have hok₂ : (fitCpds int (netOf filled [5, 7]) [df] 0 {}).2.2 = .ok () := by decide +kernel
  refine likelihood_mono int_injective (structure_of (by simp)) filled_structure (reach_of (E := clash) (by simp) (Or.inl rfl)) filled_reach
    (by decide) (by decide +kernel) (by decide +kernel) (by decide +kernel) (h := [df]) (h₂ := [df]) (ref := 0) (ref₂ := 0) (df := df) (a := {}) rfl rfl rfl
    (h' := (fitCpds int (netOf clash [5, 7]) [df] 0 {}).2.1) (h₂' := (fitCpds int (netOf filled [5, 7]) [df] 0 {}).2.1) ?_ ?_
  · rw [← hok]
  · rw [← hok₂]

example : score clash {} = .ok (27 / 4096) ∧ score filled {} = .ok (1 / 64) := by decide +kernel

/-- The hypotheses of `likelihood_equivalent` can be met. -/
example : ∃ tables tables₂, cpds (fitCpds int (netOf up [5, 7]) [df] 0 {}).1 = .ok tables ∧
    cpds (fitCpds int (netOf down [7, 5]) [df] 0 {}).1 = .ok tables₂ ∧
    ∀ test : DF ℕ ℚ, tablesLikelihood (netOf up [5, 7]) tables test = tablesLikelihood (netOf down [7, 5]) tables₂ test := by
  have hok : (fitCpds int (netOf up [5, 7]) [df] 0 {}).2.2 = .ok () := by decide +kernel
  have hok₂ : (fitCpds int (netOf down [7, 5]) [df] 0 {}).2.2 = .ok () := by decide +kernel
  refine likelihood_equivalent int_injective (structure_of (by simp)) (structure_of (by simp)) (reach_of (E := up) (by simp) (Or.inl rfl))
    (reach_of (E := down) (by simp) (Or.inr rfl)) up_down (by decide +kernel) (by decide +kernel) (h := [df]) (h₂ := [df]) (ref := 0) (ref₂ := 0)
    (df := df) (a := {}) rfl rfl (by simp) (Or.inl rfl)
    (h' := (fitCpds int (netOf up [5, 7]) [df] 0 {}).2.1) (h₂' := (fitCpds int (netOf down [7, 5]) [df] 0 {}).2.1) ?_ ?_
  · rw [← hok]
  · rw [← hok₂]

/-- The prior K2 has neither property: with more edges the probability of the data decreases, and equivalent structures give different ones. -/
theorem k2_scores : (∀ e ∈ chain, e ∈ up) ∧ Equivalent (EdgeRel chain) (EdgeRel fork) ∧
    score chain { method := "BayesianEstimator", prior := some "K2" } = .ok (3 / 1000) ∧
    score up { method := "BayesianEstimator", prior := some "K2" } = .ok (8 / 3375) ∧
    score fork { method := "BayesianEstimator", prior := some "K2" } = .ok (729 / 262144) :=
  ⟨by decide, chain_fork, by decide +kernel, by decide +kernel, by decide +kernel⟩

end Verif.Network.EquivalentWitness
