import Verif.Network.Frequencies
import Verif.Network.EquivalentWitness

/-!
# C146: concrete cases
-/

namespace Verif.Network.EquivalentWitness

open Verif.Network.Witness (int int_injective)
open Verif.Graph (Linked Collider EdgeRel)
open Function

/-- `query_frequencies` applies to the chain `0 → 1 → 2`: of the two rows with state 7 in column 1, one has state 5 in column 0. -/
example : ∃ tables e out, cpds (fitCpds int (netOf chain [5, 7]) [df] 0 {}).1 = .ok tables ∧
    BBN.Engine.create (fun _ => true) (framesOf tables) = .ok e ∧ e.query BBN.exNd [(1, 7)] = .ok out ∧ BBN.Gives out 0 5 (1 / 2) := by
  have hok : (fitCpds int (netOf chain [5, 7]) [df] 0 {}).2.2 = .ok () := by decide +kernel
  obtain ⟨tables, e, h1, h2, h3⟩ := query_frequencies (net := netOf chain [5, 7]) (df := df) int_injective (structure_of (by simp)) (by decide)
    (by intro a c b; simp [Collider, EdgeRel, chain]; omega) (reach_of (E := chain) (by simp) (Or.inl rfl)) (by decide +kernel)
    (h := [df]) (ref := 0) rfl (a := {}) (by simp) rfl (net' := (fitCpds int (netOf chain [5, 7]) [df] 0 {}).1)
    (h' := (fitCpds int (netOf chain [5, 7]) [df] 0 {}).2.1) (by rw [← hok]) (okName := fun _ => true) (by simp) BBN.exNd_legal
  obtain ⟨out, ho, hg⟩ := h3 [(1, 7)] (by decide) (by decide +kernel) (by decide +kernel) 0 (by decide +kernel) (by decide)
    (by simp [Linked, EdgeRel, chain])
  refine ⟨tables, e, out, h1, h2, ho, ?_⟩
  have := hg 5 (by decide +kernel)
  rwa [show ((seen (netOf chain [5, 7]) df [(0, 5), (1, 7)] : ℚ) / seen (netOf chain [5, 7]) df [(1, 7)]) = 1 / 2 by decide +kernel] at this

/-- With a collider even answers without evidence can differ from the relative frequencies: 2 of 4 rows have state 5 in column 1. -/
theorem collider_frequencies : Collider (EdgeRel clash) 0 1 2 ∧ FirstAnswer clash {} 1 5 (7 / 16) ∧
    seen (netOf clash [5, 7]) df [] = 4 ∧ seen (netOf clash [5, 7]) df [(1, 5)] = 2 :=
  ⟨by simp [Collider, Linked, EdgeRel, clash], colliders_matter.2.2, by decide +kernel, by decide +kernel⟩

end Verif.Network.EquivalentWitness
