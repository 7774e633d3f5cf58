import Verif.Network.LeaveOut
import Verif.Network.EquivalentWitness

/-!
# C156: concrete cases

From `0 → 1`, `0 → 2`, `1 → 2` the node 2 is left out.
-/

namespace Verif.Network.LeaveOutWitness

open Verif.Network.Witness (int int_injective)
open Verif.Network.EquivalentWitness (up row df dict netOf structure_of reach_of)

/-- `0 → 1`. -/
def rest : List (ℕ × ℕ) := [(0, 1)]

/-- The data without the column 2, the rest of the rows being the same. -/
def restDf : DF ℕ ℚ := ⟨[0, 1], df.rows.map fun r v => if v = 2 then none else r v⟩

/-- The network without the node 2; the states are listed in another order. -/
def restNet : Net ℕ ℚ ℚ := (setNodeStates ⟨[0, 1], rest, none, []⟩ [(0, [some 5, some 7]), (1, [some 7, some 5])]).1

theorem leaves : LeavesOut up rest := ⟨by decide, by decide⟩

/-- Leaving out the node 1 and keeping its child 2 is something else. -/
theorem not_leaves : ¬ LeavesOut up [(0, 2)] := fun h => absurd (h.parents (1, 2) (by decide) ⟨(0, 2), by decide, Or.inr rfl⟩) (by decide)

theorem rest_reach : Reach int [0, 1] rest restNet := by
  have hinit : (init [0, 1] rest : Except Err (Net ℕ ℚ ℚ)) = .ok ⟨[0, 1], rest, none, []⟩ := by
    unfold init
    rw [show (Graph.weakComponents _ _).length = 1 by decide, show Graph.isDag _ _ = true by decide]
    rfl
  exact .states (.init hinit) (dict := [(0, [some 5, some 7]), (1, [some 7, some 5])]) (by decide) (by decide +kernel) rfl

theorem same : SameColumns restNet.nodes df restDf := by
  refine ⟨by decide +kernel, ?_⟩
  rw [restDf, List.forall₂_map_right_iff, List.forall₂_same]
  intro r _ v hv
  have : ∀ v ∈ restNet.nodes, v ≠ 2 := by decide +kernel
  simp [this v hv]

/-- The theorem applies to these networks and data. -/
theorem leave_out_applies :
    ∃ net₂' h₂' tables tables₂ e e₂, fitCpds int restNet [restDf] 0 {} = (net₂', h₂', .ok ()) ∧
      cpds (fitCpds int (netOf up [5, 7]) [df] 0 {}).1 = .ok tables ∧
      cpds net₂' = .ok tables₂ ∧ BBN.Engine.create (fun _ => true) (framesOf tables) = .ok e ∧
      BBN.Engine.create (fun _ => true) (framesOf tables₂) = .ok e₂ ∧
      ∃ out out₂, e.query BBN.exNd [(1, 7)] = .ok out ∧ e₂.query BBN.exNd [(1, 7)] = .ok out₂ ∧
        ∃ p, BBN.Gives out 0 5 p ∧ BBN.Gives out₂ 0 5 p := by
  have hok : (fitCpds int (netOf up [5, 7]) [df] 0 {}).2.2 = .ok () := by decide +kernel
  obtain ⟨net₂', h₂', tables, tables₂, e, e₂, h1, h2, h3, h4, h5, -, h6⟩ := leave_out int_injective (structure_of (E := up) (by simp))
    (⟨by decide, by decide, by decide⟩ : IsStructure [0, 1] rest) (by decide) leaves (reach_of (E := up) (by simp) (Or.inl rfl)) rest_reach
    (by decide +kernel) (by decide +kernel) (h := [df]) (h₂ := [restDf]) (ref := 0) (ref₂ := 0) rfl rfl (by decide +kernel) same (a := {}) (by simp)
    (h' := (fitCpds int (netOf up [5, 7]) [df] 0 {}).2.1) (net' := (fitCpds int (netOf up [5, 7]) [df] 0 {}).1) (by rw [← hok])
    (okName := fun _ => true) (okName₂ := fun _ => true) (by simp) (by simp) BBN.exNd_legal BBN.exNd_legal
  obtain ⟨out, out₂, ho, ho₂, hp⟩ := h6 [(1, 7)] (by decide) (by decide +kernel)
  exact ⟨net₂', h₂', tables, tables₂, e, e₂, h1, h2, h3, h4, h5, out, out₂, ho, ho₂, hp 0 (by decide +kernel) 5 (by decide +kernel)⟩

/-- An entry of a table of a fitted network. -/
def entryOf (net : Net ℕ ℚ ℚ) (v : ℕ) (s : ℚ) (ps : List ℚ) : Option ℚ :=
  match cpds net with
  | .ok tables => (tables.lookup v).bind fun t => t.entry s ps
  | .error _ => none

/-- A row with an unknown state in the column left out. -/
def holes : DF ℕ ℚ := ⟨[0, 1, 2], row 7 7 9 :: df.rows⟩

/-- The data have to be complete: a row with an unknown state of the node left out is not counted at all by the whole network, and is counted by
the rest. -/
theorem unknown_matters :
    (fitCpds int (netOf up [5, 7]) [holes] 0 {}).2.2 = .ok () ∧ (fitCpds int restNet [holes] 0 {}).2.2 = .ok () ∧
    entryOf (fitCpds int (netOf up [5, 7]) [holes] 0 {}).1 0 5 [] = some (3 / 4) ∧
    entryOf (fitCpds int restNet [holes] 0 {}).1 0 5 [] = some (3 / 5) := by
  refine ⟨by decide +kernel, by decide +kernel, by decide +kernel, by decide +kernel⟩

end Verif.Network.LeaveOutWitness
