import Verif.Network.Prior
import Verif.Network.EquivalentWitness

/-!
# C158: concrete cases
-/

namespace Verif.Network.PriorWitness

open Verif.Network.Witness (int int_injective)
open Verif.Network.EquivalentWitness (up row df dict netOf structure_of reach_of)

/-- The Bayesian estimator with the prior K2. -/
def k2 : FitArgs ℚ := ⟨"BayesianEstimator", some "K2", none⟩

/-- The Bayesian estimator with the prior BDeu. -/
def bdeu (e : ℚ) : FitArgs ℚ := ⟨"BayesianEstimator", some "BDeu", some e⟩

theorem k2_bayesian : Bayesian k2 := ⟨rfl, Or.inl rfl⟩

theorem bdeu_bayesian {e : ℚ} (he : 0 < e) : Bayesian (bdeu e) := ⟨rfl, Or.inr ⟨rfl, e, rfl, he⟩⟩

theorem ml_ok : fitCpds int (netOf up [5, 7]) [df] 0 {} =
    ((fitCpds int (netOf up [5, 7]) [df] 0 {}).1, (fitCpds int (netOf up [5, 7]) [df] 0 {}).2.1, .ok ()) := by
  have hok : (fitCpds int (netOf up [5, 7]) [df] 0 {}).2.2 = .ok () := by decide +kernel
  rw [← hok]

theorem k2_ok : fitCpds int (netOf up [5, 7]) [df] 0 k2 =
    ((fitCpds int (netOf up [5, 7]) [df] 0 k2).1, (fitCpds int (netOf up [5, 7]) [df] 0 k2).2.1, .ok ()) := by
  have hok : (fitCpds int (netOf up [5, 7]) [df] 0 k2).2.2 = .ok () := by decide +kernel
  rw [← hok]

/-- An entry of a table of a fitted network. -/
def entryOf (net : Net ℕ ℚ ℚ) (v : ℕ) (s : ℚ) (ps : List ℚ) : Option ℚ :=
  match cpds net with
  | .ok tables => (tables.lookup v).bind fun t => t.entry s ps
  | .error _ => none

/-- The theorem applies to these data. -/
theorem prior_effect_applies : ∃ net' h' tables, fitCpds int (netOf up [5, 7]) [df] 0 k2 = (net', h', .ok ()) ∧ cpds net' = .ok tables ∧
    tables.map Prod.fst = (netOf up [5, 7]).nodes := by
  obtain ⟨net', h', -, tables, h1, -, h2, -, h3, -⟩ := prior_effect int_injective (structure_of (E := up) (by simp))
    (reach_of (E := up) (by simp) (Or.inl rfl)) (by decide +kernel) (h := [df]) (ref := 0) rfl (a₀ := {}) rfl k2_bayesian ml_ok
  exact ⟨net', h', tables, h1, h2, h3⟩

/-- Two of the three rows in which the node 0 has the state 5 have the state 5 of the node 1; the prior adds one row for each state. -/
theorem entries : knownRowsWith (netOf up [5, 7]) df [0] [5] = 3 ∧ priorRows k2 2 2 = 2 ∧
    entryOf (fitCpds int (netOf up [5, 7]) [df] 0 {}).1 1 5 [5] = some (2 / 3) ∧
    entryOf (fitCpds int (netOf up [5, 7]) [df] 0 k2).1 1 5 [5] = some (3 / 5) ∧
    entryOf (fitCpds int (netOf up [5, 7]) [df] 0 (bdeu 2)).1 1 5 [5] = some (5 / 8) ∧
    entryOf (fitCpds int (netOf up [5, 7]) [df] 0 (bdeu 6)).1 1 5 [5] = some (7 / 12) := by
  refine ⟨by decide +kernel, by decide +kernel, by decide +kernel, by decide +kernel, by decide +kernel, by decide +kernel⟩

/-- In the only row in which the node 0 has the state 7, the node 1 has the state 7, too: with maximum likelihood 5 is impossible, with a prior
it is not. -/
theorem unseen : entryOf (fitCpds int (netOf up [5, 7]) [df] 0 {}).1 1 5 [7] = some 0 ∧
    entryOf (fitCpds int (netOf up [5, 7]) [df] 0 k2).1 1 5 [7] = some (1 / 3) := by
  refine ⟨by decide +kernel, by decide +kernel⟩

/-- The theorem on the equivalent sample size applies. -/
theorem prior_strength_applies : ∃ net₁ net₂ h₁ h₂, fitCpds int (netOf up [5, 7]) [df] 0 (bdeu 2) = (net₁, h₁, .ok ()) ∧
    fitCpds int (netOf up [5, 7]) [df] 0 (bdeu 6) = (net₂, h₂, .ok ()) := by
  obtain ⟨net₁, net₂, h₁, h₂, -, -, -, e₁, e₂, -⟩ := prior_strength int_injective (structure_of (E := up) (by simp))
    (reach_of (E := up) (by simp) (Or.inl rfl)) (by decide +kernel) (h := [df]) (ref := 0) rfl (a₀ := {}) rfl ml_ok
    (e₁ := 2) (e₂ := 6) (by norm_num) (by norm_num)
  exact ⟨net₁, net₂, h₁, h₂, e₁, e₂⟩

/-- The theorem on predictions applies: the states of the node 2 are predicted for the training data. -/
theorem prior_predictions_applies (oracle : DF ℕ ℚ → List ℕ) :
    ∃ h' h'' out₁ out₂, predict oracle int (fun v => v + 10) (fitCpds int (netOf up [5, 7]) [df] 0 {}).1 [df] 0 2 = (h', .ok out₁) ∧
      predict oracle int (fun v => v + 10) (fitCpds int (netOf up [5, 7]) [df] 0 k2).1 [df] 0 2 = (h'', .ok out₂) ∧
      List.Forall₂ (fun r₁ r₂ => r₁ 12 = r₂ 12) out₁.rows out₂.rows := by
  refine prior_predictions int_injective (structure_of (E := up) (by simp))
    (reach_of (E := up) (by simp) (Or.inl rfl)) (by decide +kernel) (h₀ := [df]) (ref₀ := 0) rfl (a₁ := {}) (a₂ := k2) (by simp) (by simp [k2])
    ml_ok k2_ok (v := 2) (by decide +kernel) (h := [df]) (ref := 0) rfl ?_ ?_ oracle (fun v => v + 10)
  · intro p hp
    have : ∀ e ∈ up, e.1 ∈ df.cols := by decide
    exact this _ hp
  · intro r hr p hp
    have hc : ∀ r ∈ df.rows, ∀ e ∈ up, ∃ s ∈ statesOf (netOf up [5, 7]) e.1, r e.1 = some s := by decide +kernel
    exact hc r hr _ hp

end Verif.Network.PriorWitness
