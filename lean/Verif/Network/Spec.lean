import Verif.Network.Model

/-!
# Specification of what a user observes of a `BayesianNetwork`
-/

namespace Verif.Network

section
variable {V S K : Type} [LinearOrder V] [LinearOrder S]

/-- The states the network reports for a node (`bn.node_states[v]`), in increasing order. -/
def statesOf (net : Net V S K) (v : V) : List S :=
  match net.states with
  | some states => ((states.lookup v).getD []).map Prod.fst
  | none => []

/-- The entry of a CPD frame for state `s` of the node and states `ps` of its parents
(`frame.loc[s, ps]`), read by label. -/
def Table.entry (t : Table V S K) (s : S) (ps : List S) : Option K :=
  ((t.index.zip t.rows).lookup s).bind fun row => (t.cols.zip row).lookup ps

/-- The code of a state: the number of smaller states of the node. -/
def rank (net : Net V S K) (v : V) (s : S) : ℕ := (statesOf net v).countP (· < s)

/-- The state with a given code. -/
def decode (int : ℕ → S) (net : Net V S K) (v : V) (x : S) : Option S :=
  (statesOf net v).find? fun s => int (rank net v s) = x

/-- Does the row give every node of the network one of its states? -/
def Known (net : Net V S K) (r : V → Option S) : Prop :=
  ∀ u ∈ net.nodes, ∃ s ∈ statesOf net u, r u = some s

instance (net : Net V S K) : DecidablePred (Known net) := fun r =>
  inferInstanceAs (Decidable (∀ u ∈ net.nodes, ∃ s ∈ statesOf net u, r u = some s))

/-- The number of rows of the data in which every node of the network has a known state, `v` has
state `s` and the parents have states `ps`. -/
def observed (net : Net V S K) (df : DF V S) (v : V) (parents : List V) (s : S) (ps : List S) : ℕ :=
  df.rows.countP fun r => Known net r ∧
    r v = some s ∧ parents.map r = ps.map some

/-- The list of parents of `v`: no repetitions, increasing, exactly the sources of edges into `v`. -/
def IsParentList (edges : List (V × V)) (v : V) (parents : List V) : Prop :=
  parents.Pairwise (· < ·) ∧ ∀ u, u ∈ parents ↔ (u, v) ∈ edges

/-- Combinations of states of the parents. -/
def IsConfig (net : Net V S K) (parents : List V) (ps : List S) : Prop :=
  List.Forall₂ (fun s p => s ∈ statesOf net p) ps parents

variable [Zero K] [One K] [Add K] [Div K] [NatCast K]

/-- Networks that a sequence of calls can produce from the structure with nodes `ns` and edges `E`.
`node_states` is a dict of sets. -/
inductive Reach (int : ℕ → S) (ns : List V) (E : List (V × V)) : Net V S K → Prop
  | init {net} : init ns E = .ok net → Reach int ns E net
  | states {net net'} {dict : List (V × List (Option S))} {r} : Reach int ns E net →
      (dict.map Prod.fst).Nodup → (∀ q ∈ dict, q.2.Nodup) →
      setNodeStates net dict = (net', r) → Reach int ns E net'
  | fit {net net' h h' ref a r} : Reach int ns E net →
      fitCpds int net h ref a = (net', h', r) → Reach int ns E net'

/-- The probability an estimator should report for state `s`, given the numbers `N` of observations
of each state in `ks` (for one configuration of the parents) and the number `cfgs` of configurations
of the parents. -/
def estimate [Field K] (a : FitArgs K) (ks : List S) (cfgs : ℕ) (N : S → ℕ) (s : S) : K :=
  let total : K := ((ks.map N).sum : ℕ)
  if a.method = "MaximumLikelihoodEstimator" then
    if (ks.map N).sum = 0 then 1 / ks.length else N s / total
  else if a.prior = some "K2" then (N s + 1) / (total + ks.length)
  else
    let α : K := a.ess.getD 0 / (ks.length * cfgs)
    (N s + α) / (total + ks.length * α)

/-- The structure handed to the constructor: a graph without repeated nodes or edges. -/
structure IsStructure (ns : List V) (E : List (V × V)) : Prop where
  nodes_nodup : ns.Nodup
  edges_nodup : E.Nodup
  edges_mem : ∀ e ∈ E, e.1 ∈ ns ∧ e.2 ∈ ns

end

end Verif.Network
