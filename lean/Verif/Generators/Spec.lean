import Verif.Generators.Model
import Verif.Graph.Basic

/-!
# Specification of random structures
-/

namespace Verif.Generators

open Verif.Notears (Graph)

/-- The edges of a graph as pairs. -/
def pairs {N K : Type} (g : Graph N K) : List (N × N) := g.edges.map fun e => (e.src, e.dst)

section
variable {K : Type} [Field K] [LinearOrder K]

/-- A simple weighted DAG on the nodes `0, ..., n - 1`, the absolute values of the weights being between `lo` and
`hi`. -/
structure WeightedDag (n : ℕ) (lo hi : K) (g : Graph ℕ K) : Prop where
  nodes : g.nodes = List.range n
  ends : ∀ e ∈ g.edges, e.src < n ∧ e.dst < n
  simple : (pairs g).Nodup
  acyclic : Verif.Graph.Acyclic (pairs g)
  weights : ∀ e ∈ g.edges, lo ≤ |e.weight| ∧ |e.weight| ≤ hi

/-- Uniform random numbers are at least 0 and less than 1. -/
structure Draws.Uniform {n : ℕ} (r : Draws K n) : Prop where
  rand : ∀ i j, 0 ≤ r.rand i j ∧ r.rand i j < 1
  unif : ∀ i j, 0 ≤ r.unif i j ∧ r.unif i j < 1

end

end Verif.Generators
