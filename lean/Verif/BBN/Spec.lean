import Verif.BBN.Model
import Verif.Graph.Basic

/-!
# Specification of exact inference

Stated by enumeration of all complete assignments; nothing of the join-tree machinery is used.
-/

namespace Verif.BBN

open Function

section
variable {V S K : Type} [LinearOrder V] [DecidableEq S]

/-- All assignments of states to the variables `vs`; `x` fixes the other variables. -/
def worlds (dom : V → List S) : List V → (V → S) → List (V → S)
  | [], x => [x]
  | v :: vs, x => (dom v).flatMap fun s => worlds dom vs (update x v s)

/-- The joint probability of a complete assignment: the product of the conditional probability
functions of all nodes. -/
def joint [Mul K] [One K] (nodes : List (Node V S K)) (x : V → S) : K :=
  (nodes.map fun n => n.fn (n.args.map x)).prod

/-- The assignment agrees with the evidence. -/
def Agrees (ev : List (V × S)) (x : V → S) : Prop := ∀ p ∈ ev, x p.1 = p.2

instance (ev : List (V × S)) : DecidablePred (Agrees (V := V) ev) := fun x =>
  inferInstanceAs (Decidable (∀ p ∈ ev, x p.1 = p.2))

/-- Total joint probability of the assignments satisfying `A`. -/
def massOf [Semiring K] (dom : V → List S) (nodes : List (Node V S K)) (x₀ : V → S)
    (A : (V → S) → Prop) [DecidablePred A] : K :=
  (((worlds dom (nodes.map Node.var) x₀).filter fun x => A x).map (joint nodes)).sum

/-- The nodes describe a network: distinct variables, each a (distinct) argument of its own
function, and no argument that is not itself a variable of the network. -/
structure NodesWF (nodes : List (Node V S K)) : Prop where
  nodup : (nodes.map Node.var).Nodup
  var_mem : ∀ n ∈ nodes, n.var ∈ n.args
  args_nodup : ∀ n ∈ nodes, n.args.Nodup
  args_sub : ∀ n ∈ nodes, ∀ a ∈ n.args, a ∈ nodes.map Node.var

/-- The arrows of the network, from the arguments of each function to its variable. -/
def arrows (nodes : List (Node V S K)) : List (V × V) :=
  nodes.flatMap fun n => n.parents.map fun p => (p, n.var)

/-- The network is in one piece. -/
def Connected (nodes : List (Node V S K)) : Prop :=
  ∀ u ∈ nodes.map Node.var, ∀ w ∈ nodes.map Node.var, Graph.WConn (arrows nodes) u w

/-- Conditional probabilities are nonnegative. -/
def NonNeg [Zero K] [LE K] (dom : V → List S) (nodes : List (Node V S K)) : Prop :=
  ∀ n ∈ nodes, ∀ x : V → S, (∀ a ∈ n.args, x a ∈ dom a) → 0 ≤ n.fn (n.args.map x)

/-- Every conditional distribution sums to one over the states of its own variable. -/
def Normalised [Semiring K] (dom : V → List S) (nodes : List (Node V S K)) : Prop :=
  ∀ n ∈ nodes, ∀ x : V → S, (∀ a ∈ n.args, a ≠ n.var → x a ∈ dom a) →
    ((dom n.var).map fun s => n.fn (n.args.map (update x n.var s))).sum = 1

/-- A Bayesian network as a fitted `BayesianNetwork` provides it: at least one node, a connected
acyclic graph, distinct states (at least one) for every variable, and nonnegative conditional
probabilities summing to one. -/
structure IsNetwork [Semiring K] [LE K] (dom : V → List S) (nodes : List (Node V S K)) : Prop where
  wf : NodesWF nodes
  nonempty : nodes ≠ []
  acyclic : Graph.Acyclic (arrows nodes)
  connected : Connected nodes
  states_nodup : ∀ n ∈ nodes, (dom n.var).Nodup
  nonneg : NonNeg dom nodes
  normalised : Normalised dom nodes

/-- The evidence is a dictionary whose keys are variables and whose values are states of them. -/
def GoodEvidence (dom : V → List S) (nodes : List (Node V S K)) (ev : List (V × S)) : Prop :=
  ∀ p ∈ ev, p.1 ∈ nodes.map Node.var ∧ p.2 ∈ dom p.1

/-- All (variable, state) pairs of the network. -/
def allStates (dom : V → List S) (nodes : List (Node V S K)) : List (V × S) :=
  nodes.flatMap fun n => (dom n.var).map fun s => (n.var, s)

end

end Verif.BBN
