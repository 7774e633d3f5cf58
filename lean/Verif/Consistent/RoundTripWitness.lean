import Verif.Consistent.RoundTrip
import Verif.Consistent.Witness

/-!
# Concrete cases for C129
-/

namespace Verif.Consistent.Witness

open Verif.BBN Function MeasureTheory ProbabilityTheory
open Verif.Network (Net Table fitCpds cpds framesOf statesOf dataMass)
open Verif.Network.Witness (ns E int int_injective isStructure df)

theorem fit_ok : ∃ net₂ h₂ tables, fitCpds int net₁ [df] 0 {} = (net₂, h₂, .ok ()) ∧ cpds net₂ = .ok tables ∧ Fitted (framesOf tables) := by
  have hok := (Verif.Network.fit_ok_iff (int := int) isStructure reach₁ (h := [df]) (ref := 0) (df := df) rfl {}).2
    ⟨by obtain ⟨states, hst⟩ : ∃ states, net₁.states = some states := ⟨_, rfl⟩; rw [hst]; simp, by rw [nodes₁]; decide, Or.inl rfl⟩
  obtain ⟨net₂, h₂, res, hf⟩ : ∃ net₂ h₂ res, fitCpds int net₁ [df] 0 {} = (net₂, h₂, res) := ⟨_, _, _, rfl⟩
  rw [hf] at hok
  simp only at hok
  subst hok
  obtain ⟨tables, h1, -, h2⟩ := Verif.Network.fitted_is_network int_injective isStructure (by decide) reach₁
    (fun v hv => List.ne_nil_of_mem (start_ok v hv)) (by simp) hf
  exact ⟨net₂, h₂, tables, hf, h1, h2⟩

/-- C129 applies to this network, the samples being given to a new network with the same states. -/
example {net₂ : Net ℕ ℚ ℝ} {h₂} {tables : List (ℕ × Table ℕ ℚ ℝ)} (hf : fitCpds int net₁ [df] 0 {} = (net₂, h₂, .ok ())) (h1 : cpds net₂ = .ok tables) :=
  sample_then_fit int_injective isStructure (by decide) reach₁ start_ok (by simp) hf h1 reach₁ (fun _ _ => rfl)
    (a := { method := "BayesianEstimator", prior := some "K2" }) (Or.inr ⟨rfl, Or.inl rfl⟩) (by simp) (ε := 1 / 100) (p := 1 / 100) (by norm_num) (by norm_num)

/-- C129 applies to this network, the samples being given to the fitted network itself. -/
example {net₂ : Net ℕ ℚ ℝ} {h₂} {tables : List (ℕ × Table ℕ ℚ ℝ)} (hf : fitCpds int net₁ [df] 0 {} = (net₂, h₂, .ok ())) (h1 : cpds net₂ = .ok tables) :=
  sample_then_fit int_injective isStructure (by decide) reach₁ start_ok (by simp) hf h1 (reach₁.fit hf)
    (fun v _ => (Verif.Network.fit_cpds_correct int_injective isStructure reach₁ (fun v hv => List.ne_nil_of_mem (start_ok v hv)) (h := [df]) (ref := 0)
      (df := df) rfl hf).2.2.1 v)
    (a := {}) (Or.inl rfl) (by simp) (ε := 1 / 100) (p := 1 / 100) (by norm_num) (by norm_num)

end Verif.Consistent.Witness
