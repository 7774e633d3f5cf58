import Verif.Consistent.CausalMany
import Verif.Consistent.Witness
import Verif.Network.EquivalentDoWitness

/-!
# C150: a concrete case

Two interventions in the network `0 → 1`, `0 → 2`, `1 → 2`.
-/

namespace Verif.Consistent.ManyWitness

open Verif.BBN
open Verif.Network (Net setNodeStates statesOf IsStructure IsParentList IsConditional init nodesOfEdges inForce Left)
open Verif.Network.Witness (int int_injective)
open Verif.Network.EquivalentWitness (up dict structure_of connected_hub)

/-- The network with states 5 and 7 of all nodes. -/
noncomputable def net : Net ℕ ℚ ℝ := (setNodeStates (⟨nodesOfEdges up, up, none, []⟩ : Net ℕ ℚ ℝ) (dict [5, 7])).1

theorem up_ok : IsStructure [0, 1, 2] up := structure_of (by simp)

theorem net_reach : Verif.Network.Reach int [0, 1, 2] up net := by
  have hinit : (init [0, 1, 2] up : Except Verif.Network.Err (Net ℕ ℚ ℝ)) = .ok ⟨nodesOfEdges up, up, none, []⟩ := by
    unfold init
    rw [show (Graph.weakComponents _ _).length = 1 by decide, show Graph.isDag _ _ = true by decide]
    rfl
  exact .states (.init hinit) (dict := dict [5, 7]) (by decide) (by decide +kernel) rfl

theorem net_nodes {v : ℕ} (hv : v ∈ net.nodes) : v = 0 ∨ v = 1 ∨ v = 2 := by
  have : net.nodes = nodesOfEdges up := (net_reach.wf up_ok).nodes
  rw [this] at hv
  have h : nodesOfEdges up = [0, 1, 2] := by decide
  rw [h] at hv
  simpa using hv

theorem net_states {v : ℕ} (hv : v ∈ net.nodes) : statesOf net v = [5, 7] := by
  rcases net_nodes hv with rfl | rfl | rfl <;> decide +kernel

theorem mem_net {v : ℕ} (hv : v = 0 ∨ v = 1 ∨ v = 2) : v ∈ net.nodes := by
  rw [(net_reach.wf up_ok).nodes]
  rcases hv with rfl | rfl | rfl <;> decide

/-- The parents. -/
def par (v : ℕ) : List ℕ := if v = 1 then [0] else if v = 2 then [0, 1] else []

theorem par_ok : ∀ v ∈ net.nodes, IsParentList up v (par v) := by
  intro v _
  unfold par
  split_ifs <;> simp [IsParentList, up, *]

/-- Nodes tend to have the state of their first parent. -/
noncomputable def Q (_ : ℕ) (s : ℚ) (ps : List ℚ) : ℝ := if (ps.head? = some 5 ↔ s = 5) then 3 / 4 else 1 / 4

theorem Q_pos (v : ℕ) (s : ℚ) (ps : List ℚ) : 0 < Q v s ps := by
  unfold Q
  split_ifs <;> norm_num

theorem Q_ok : IsConditional net par Q := by
  intro v hv ps _
  refine ⟨fun s _ => (Q_pos v s ps).le, ?_⟩
  rw [net_states hv]
  have h57 : (7 : ℚ) ≠ 5 := by norm_num
  simp only [Q, List.map_cons, List.map_nil, List.sum_cons, List.sum_nil, h57, iff_false, iff_true]
  by_cases h : ps.head? = some 5
  · simp [h]; norm_num
  · simp [h]; norm_num

theorem start_ok : ∀ v ∈ net.nodes, (fun _ => (5 : ℚ)) v ∈ statesOf net v := by
  intro v hv
  rw [net_states hv]
  simp

/-- Both states with probability one half. -/
noncomputable def even : Dist ℚ ℝ := ⟨{5, 7}, fun _ => 1 / 2⟩

theorem even_ok {v : ℕ} (hv : v ∈ net.nodes) : even.IsDist (statesOf net v).toFinset := by
  refine ⟨by rw [net_states hv]; rfl, ?_, fun s _ => by simp [even]⟩
  have : (5 : ℚ) ≠ 7 := by norm_num
  simp only [even]
  rw [Finset.sum_pair this]
  norm_num

/-- The nodes 0 and 1 are set, and 0 is reset and set again. -/
noncomputable def acts : List (ℕ × Option (Dist ℚ ℝ)) := [(0, some even), (1, some even), (0, none), (0, some even)]

theorem acts_two (l : List (ℕ × Option (Dist ℚ ℝ))) (hl : ∀ q ∈ l, q.1 = 0 ∨ q.1 = 1) : inForce l 2 = none := by
  cases h : inForce l 2 with
  | none => rfl
  | some d =>
    have := hl _ (inForce_mem h)
    simp at this

theorem acts_plan : Plan net up acts := by
  intro before v o after h
  have hall : ∀ q ∈ acts, q.1 = 0 ∨ q.1 = 1 := by simp [acts]
  have hd : ∀ q ∈ acts, ∀ d, q.2 = some d → d = even := by
    simp only [acts, List.mem_cons, List.not_mem_nil, or_false, forall_eq_or_imp, forall_eq, Option.some.injEq, reduceCtorEq, false_implies,
      implies_true, true_and]
    exact ⟨fun d h => h.symm, fun d h => h.symm, fun d h => h.symm⟩
  have hm : (v, o) ∈ acts := by rw [h]; simp
  have hv : v ∈ net.nodes := mem_net (by rcases hall _ hm with h | h; exacts [Or.inl h, Or.inr (Or.inl h)])
  refine ⟨hv, fun d e => ?_⟩
  rw [hd _ hm d e]
  refine ⟨even_ok hv, 2, ?_, acts_two _ fun q hq => hall q (by rw [h]; simp [hq])⟩
  rcases hall _ hm with h | h
  · rw [show v = 0 from h]; decide
  · rw [show v = 1 from h]; decide

theorem acts_connected : ∀ u ∈ net.nodes, ∀ w ∈ net.nodes, Graph.WConn (Left (inForce acts) up) u w := by
  have h2 : inForce acts 2 = none := acts_two _ (by simp [acts])
  exact connected_hub (fun a ha => net_nodes ha) (Or.inr (by simp [Left, up, h2])) (Or.inr (by simp [Left, up, h2]))

theorem model_ok : IsModel (statesOf net) net.nodes par Q := isModel_of up_ok net_reach (states_nodup up_ok net_reach) par_ok Q_ok

/-- The hypotheses of C150 can be met. -/
example := several_effects_consistent int_injective up_ok (by decide) net_reach start_ok par_ok Q_ok (a := {}) (Or.inl rfl) (by simp) acts_plan acts_connected
  (model_ok.overlaps start_ok _ fun v _ ps _ s _ => Q_pos v s ps) (ε := 1 / 100) (p := 1 / 100) (by norm_num) (by norm_num)

/-- There are infinite sequences of rows from this network. -/
example := rows_exist model_ok start_ok ℕ

end Verif.Consistent.ManyWitness
