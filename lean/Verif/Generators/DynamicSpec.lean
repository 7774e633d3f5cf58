import Verif.Generators.Dynamic
import Verif.Generators.Spec

/-!
# Specification of random dynamic structures
-/

namespace Verif.Generators

open Verif.Notears (Graph)
open Verif.Str (Str natStr)
open Verif.Dynotears (lagName)

section
variable {K : Type} [Field K] [LinearOrder K]

/-- Uniform random numbers are at least 0 and less than 1. -/
def InterDraws.Uniform (r : InterDraws K) : Prop :=
  (∀ i j, 0 ≤ r.rand i j ∧ r.rand i j < 1) ∧ ∀ i a b, 0 ≤ r.unif i a b ∧ r.unif i a b < 1

/-- A dynamic DAG on the nodes `{i}_lag{k}` for `i < n` and `k ≤ p`: all edges end in lag 0, weights within a time
slice have absolute values between `lo` and `hi`, a weight from lag `k` is, up to sign, a number between `lo'` and
`hi'` divided by `decay ^ (k - 1)`. -/
structure DynamicDag (n p : ℕ) (lo hi lo' hi' decay : K) (g : Graph Str K) : Prop where
  nodes : ∀ v, v ∈ g.nodes ↔ ∃ i < n, ∃ k ≤ p, v = lagName (natStr i) k
  nodup : g.nodes.Nodup
  count : g.nodes.length = n * (p + 1)
  simple : (pairs g).Nodup
  acyclic : Verif.Graph.Acyclic (pairs g)
  edges : ∀ e ∈ g.edges, ∃ i < n, ∃ k ≤ p, ∃ j < n, e.src = lagName (natStr i) k ∧ e.dst = lagName (natStr j) 0 ∧
    (k = 0 → lo ≤ |e.weight| ∧ |e.weight| ≤ hi) ∧
    (k ≠ 0 → ∃ x, lo' ≤ x ∧ x ≤ hi' ∧ (e.weight = x / decay ^ (k - 1) ∨ e.weight = -(x / decay ^ (k - 1))))

end

end Verif.Generators
