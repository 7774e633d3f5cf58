import Verif.Consistent.SampleFrequency
import Verif.BBN.SampleIidWitness

/-!
# Concrete cases for C143
-/

namespace Verif.Consistent

open Verif.BBN Function MeasureTheory ProbabilityTheory

/-- The three-node example with evidence and 1000 samples: there is a source of random numbers as assumed, the query has an answer, and the
probability that one of the six frequencies is off by 0.1 or more is at most 12 exp (-20). -/
example : ∃ (P : Measure ((ℕ × ℕ → ℕ) × (ℕ × ℕ → ℝ))) (U : ℕ → ℕ → (ℕ × ℕ → ℕ) × (ℕ × ℕ → ℝ) → ℝ), IsProbabilityMeasure P ∧
    ∃ res, query exNd exDom (castNodes exNodes) [(2, true)] = .ok res ∧ res.length = 6 ∧
      P {ω | ¬ ∃ ss, drawSamples exNd exDom (castNodes exNodes) [(2, true)] 1000 (fun k i => ⟨ω.1 (k, i), U k i ω⟩) = .ok ss ∧ ss.length = 1000 ∧
        ∀ v s p, ((v, s), p) ∈ res → |(ss.countP fun sample => (v, s) ∈ sample) / ((1000 : ℕ) : ℝ) - p| < 1 / 10} ≤ ENNReal.ofReal (12 * Real.exp (-20)) := by
  obtain ⟨P, U, h1, h2, -⟩ := source_exists (Measure.dirac fun _ => 0)
  have hx : ∀ v ∈ (castNodes exNodes).map Node.var, (fun _ => true : ℕ → Bool) v ∈ exDom v := by rw [castNodes_vars]; exact exDom_valid
  have hk : (([(2, true)] : List (ℕ × Bool)).map Prod.fst).Nodup := by simp
  have hev : GoodEvidence exDom (castNodes exNodes) [(2, true)] := by unfold GoodEvidence; rw [castNodes_vars]; decide
  have hpos : 0 < massOf exDom (castNodes exNodes) (fun _ => true) (Agrees [(2, true)]) := by rw [castNodes_mass]; exact_mod_cast ex_evidence_pos
  obtain ⟨res, hr, hp, -⟩ := query_conditional exNd_legal (castNodes_network exNodes_network) hx hk hev hpos
  have hlen : (allStates exDom (castNodes exNodes)).length = 6 := by
    rw [allStates, castNodes, List.flatMap_map]
    decide +kernel
  refine ⟨P, U, h1, res, hr, ?_, ?_⟩
  · have := hp.length_eq
    rw [List.length_map, hlen] at this
    exact this
  · have h := sample_frequencies exNd_legal (castNodes_network exNodes_network) hx hk hev hpos h2 (n := 1000) (by norm_num) (ε := 1 / 10) (by norm_num) hr
    refine h.trans (ENNReal.ofReal_le_ofReal (le_of_eq ?_))
    rw [hlen]
    norm_num

end Verif.Consistent
