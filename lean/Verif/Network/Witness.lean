import Verif.Network.PropsPredict
import Verif.Network.ToEngine
import Mathlib.Algebra.Order.Ring.Rat
import Mathlib.Data.Rat.Cast.CharZero

/-!
# Concrete networks: the hypotheses of the theorems can be met, and counterexamples

Columns are named by numbers; states and probabilities are rational numbers.
-/

namespace Verif.Network.Witness

open Function

/-- The structure `0 → 1`. -/
def ns : List ℕ := [0, 1]

/-- The structure `0 → 1`. -/
def E : List (ℕ × ℕ) := [(0, 1)]

/-- The number `i` as a Python value. -/
def int (i : ℕ) : ℚ := i

theorem int_injective : Injective int := fun _ _ h => Nat.cast_injective h

/-- A row with two columns. -/
def row (a b : Option ℚ) : ℕ → Option ℚ
  | 0 => a
  | 1 => b
  | _ => none

/-- Data in which the child copies its parent; states are 5 and 7. -/
def df : DF ℕ ℚ := ⟨[0, 1], [row (some 5) (some 5), row (some 7) (some 7), row (some 7) (some 7)]⟩

/-- The states of the two nodes, as a user may list them. -/
def dict : List (ℕ × List (Option ℚ)) := [(0, [some 7, some 5]), (1, [some 5, some 7])]

/-- The freshly constructed network. -/
def net₀ : Net ℕ ℚ ℚ := ⟨[0, 1], [(0, 1)], none, []⟩

/-- The network with its states set. -/
def net₁ : Net ℕ ℚ ℚ := (setNodeStates net₀ dict).1

/-- The network fitted by maximum likelihood. -/
def net₂ : Net ℕ ℚ ℚ := (fitCpds int net₁ [df] 0 {}).1

theorem isStructure : IsStructure ns E := ⟨by decide, by decide, by decide⟩

theorem init_ok : (init ns E : Except Err (Net ℕ ℚ ℚ)) = .ok net₀ := by
  have h1 : (Graph.weakComponents ns E).length = 1 := by decide
  have h2 : Graph.isDag ns E = true := by decide
  unfold init
  rw [h1, h2]
  rfl

theorem set_ok : (setNodeStates net₀ dict).2 = .ok () := by decide +kernel

theorem states₀ : statesOf net₁ 0 = [5, 7] := by decide +kernel
theorem states₁ : statesOf net₁ 1 = [5, 7] := by decide +kernel

theorem reach₁ : Reach int ns E net₁ :=
  .states (.init init_ok) (dict := dict) (by decide) (by decide +kernel) rfl

theorem nodes₁ : net₁.nodes = [0, 1] := by
  have := reach₁.wf isStructure
  rw [this.nodes]
  decide

theorem nonempty₁ : ∀ v ∈ net₁.nodes, statesOf net₁ v ≠ [] := by
  rw [nodes₁]
  intro v hv
  simp only [List.mem_cons, List.not_mem_nil, or_false] at hv
  rcases hv with rfl | rfl
  · rw [states₀]; decide
  · rw [states₁]; decide

theorem fit_ok : (fitCpds int net₁ [df] 0 {}).2.2 = .ok () := by decide +kernel

theorem fit_eq : fitCpds int net₁ [df] 0 {} = (net₂, (fitCpds int net₁ [df] 0 {}).2.1, .ok ()) := by
  rw [← fit_ok]
  rfl

/-- The tables of the fitted network, `(node, states, parents, columns, entries)`. -/
theorem tables_eq :
    (cpds net₂).map (fun l => l.map fun q => (q.1, q.2.index, q.2.parents)) =
      .ok [(0, [5, 7], []), (1, [5, 7], [0])] ∧
    (cpds net₂).map (fun l => l.map fun q => (q.2.cols, q.2.rows)) =
      .ok [([[]], [[1 / 3], [2 / 3]]), ([[5], [7]], [[1, 0], [0, 1]])] := by decide +kernel

/-- C10 applies to this network. -/
example := fit_cpds_correct int_injective isStructure reach₁ nonempty₁ (h := [df]) (ref := 0)
  (df := df) rfl fit_eq

/-- C10 applies to this network: all entries are probabilities. -/
example := fit_cpds_prob int_injective isStructure reach₁ nonempty₁ (h := [df]) (ref := 0)
  (by simp) fit_eq

/-- C09 applies to this network. -/
example : ∃ states, net₁.states = some states ∧ ∀ c ∈ df.cols, c ∈ states.map Prod.fst := by
  refine ⟨(net₁.states).getD [], ?_, ?_⟩ <;> decide +kernel

/-- C13: the structure has no node 9. -/
example (num : ℚ → ℚ) (fmt : ℕ → ℚ → ℕ) := predict_unknown_node isStructure reach₁ (h := [df]) (ref := 0) (df := df) rfl (v := 9)
  (by decide) (fun _ => []) (fun _ => 10) id (fun _ => .ok fun _ => false) num fmt []

/-- C11 applies to this network. -/
example := fit_ok_iff (int := int) isStructure reach₁ (h := [df]) (ref := 0) (df := df) rfl {}

/-- C70 applies to this network: for each kind of inference there is a fitted engine. -/
theorem engine_exists : ∃ tables, cpds net₂ = .ok tables ∧ BBN.Fitted (framesOf tables) := by
  obtain ⟨t, h1, -, h2⟩ := fitted_is_network int_injective isStructure (by decide) reach₁ nonempty₁
    (by simp) fit_eq
  exact ⟨t, h1, h2⟩

/-- C70 applies to this network, with the evidence that the child has state 7, which has positive
probability. -/
example : 0 < dataMass (K := ℚ) {} net₁ df (fun v => if v = 1 then [0] else []) (fun _ => 5)
    (BBN.Agrees [(1, 7)]) := by decide +kernel

example : ∀ v ∈ net₁.nodes, IsParentList E v (if v = 1 then [0] else []) := by
  rw [nodes₁]
  intro v hv
  simp only [List.mem_cons, List.not_mem_nil, or_false] at hv
  rcases hv with rfl | rfl
  · refine ⟨by simp, fun u => ?_⟩
    simp [E]
  · refine ⟨by simp, fun u => ?_⟩
    simp [E]

/-- C12 applies to this network. -/
theorem predict_ok : ((predict (fun _ => []) int (fun _ => 9) net₂ [df] 0 1).2.map fun d =>
    d.rows.map fun r => r 9) = .ok [some 5, some 7, some 7] := by decide +kernel

/-! ### C09: an unseen state is not rejected -/

/-- The data with a row in which the child has the unknown state 6. -/
def df₆ : DF ℕ ℚ := ⟨[0, 1], row (some 7) (some 6) :: df.rows⟩

/-- A state outside `node_states` is accepted: the row is silently left out. -/
theorem unseen_state_accepted : statesOf net₁ 1 = [5, 7] ∧
    (fitCpds int net₁ [df₆] 0 {}).2.2 = .ok () ∧
    (cpds (fitCpds int net₁ [df₆] 0 {}).1).map (fun l => l.map fun q => (q.1, q.2.rows)) =
      (cpds net₂).map (fun l => l.map fun q => (q.1, q.2.rows)) := by decide +kernel

/-! ### C12: a parent with the name of a column of the result -/

/-- Data in which the child is the negation of its parent. -/
def dfNeg : DF ℕ ℚ := ⟨[0, 1], [row (some 0) (some 1), row (some 1) (some 0)]⟩

/-- The network fitted to this data. -/
def netNeg : Net ℕ ℚ ℚ :=
  (fitCpds int (setNodeStates net₀ [(0, [some 0, some 1]), (1, [some 0, some 1])]).1 [dfNeg] 0 {}).1

/-- The name `{node}_{state}` of a column; for state 1 of node 1 it is the name of node 0, as for
nodes called `"b_1"` and `"b"`. -/
def fmt (v : ℕ) (s : ℚ) : ℕ := if v = 1 ∧ s = 1 then 0 else 10 + v

/-- The first column of the result overwrites the parent's column, from which the second one is then
computed: in the first row both states of the child get probability one, in the second row zero. -/
theorem predict_probability_collision :
    ((predictProbability id (fun _ => .ok fun _ => false) int id fmt [1, 0] netNeg [dfNeg] 0 1).2.map
      fun d => d.rows.map fun r => (r (fmt 1 1), r (fmt 1 0))) =
      .ok [(some 1, some 1), (some 0, some 0)] ∧
    (cpds netNeg).map (fun l => l.map fun q => (q.1, q.2.cols, q.2.rows)) =
      .ok [(0, [[]], [[1 / 2], [1 / 2]]), (1, [[0], [1]], [[0, 1], [1, 0]])] := by
  decide +kernel

/-! ### C13: codes instead of states -/

/-- The data without the parent's column. -/
def dfChild : DF ℕ ℚ := ⟨[1], df.rows⟩

/-- Even if the inference is right (here: the code of state 7 in each row), `predict` reports the
code 1, which is not a state of the node. -/
theorem predict_incomplete_codes :
    ((predict (fun d => d.rows.map fun _ => rank net₂ 1 7) int (fun _ => 9) net₂ [dfChild] 0 1).2.map
      fun d => d.rows.map fun r => r 9) = .ok [some 1, some 1, some 1] ∧
    (1 : ℚ) ∉ statesOf net₂ 1 ∧ (7 : ℚ) ∈ statesOf net₂ 1 := by decide +kernel

/-! ### Stale CPDs -/

/-- Setting other states after fitting relabels the old CPD. -/
theorem stale_cpds :
    (cpds (setNodeStates net₂ [(0, [some 1, some 2]), (1, [some 3, some 4])]).1).map
      (fun l => l.map fun q => (q.2.index, q.2.cols, q.2.rows)) =
    .ok [([1, 2], [[]], [[1 / 3], [2 / 3]]), ([3, 4], [[1], [2]], [[1, 0], [0, 1]])] := by
  decide +kernel

end Verif.Network.Witness
