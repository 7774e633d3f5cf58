import Verif.Dynotears.Model
import Verif.Notears.Spec

/-!
# Specification for learning of dynamic structures
-/

namespace Verif.Dynotears

open Verif.Notears Verif.Str

/-- An edge from `u`, `k` steps before, to `v` is not excluded by the user: not a self loop within the
same time slice, not a tabu edge, not from a tabu parent, not into a tabu child. -/
def Permitted {N : Type} (t : Tabu N) (k : ℕ) (u v : N) : Prop :=
  (k = 0 → u ≠ v) ∧ (∀ te, t.edges = some te → (k, u, v) ∉ te) ∧ (∀ tp, t.parents = some tp → u ∉ tp) ∧
    ∀ tc, t.children = some tc → v ∉ tc

section
variable {K : Type} [Field K] [LinearOrder K]

/-- The weight with which variable `i`, `k` steps before, acts on variable `j`, in a vector that consists of
a positive and a negative `d × d` block for every `k`. -/
def weightOf (d : ℕ) (vec : List K) (k i j : ℕ) : K :=
  vec.getD (2 * k * d ^ 2 + i * d + j) 0 - vec.getD ((2 * k + 1) * d ^ 2 + i * d + j) 0

/-- The dynamic graph given by weights, with a threshold: the nodes are all variables at all lags up to
`p`; there is exactly one edge from variable `i` at lag `k` to variable `j` at lag 0 for every nonzero
weight not below the threshold, and no other edge. -/
structure IsDynGraph (names : List Str) (p : ℕ) (w : ℕ → ℕ → ℕ → K) (thr : K) (origin : String)
    (g : Graph Str K) : Prop where
  nodes : ∀ n, n ∈ g.nodes ↔ ∃ v ∈ names, ∃ k ≤ p, n = lagName v k
  nodes_nodup : g.nodes.Nodup
  edges : ∀ e, e ∈ g.edges ↔ ∃ k i j u v, k ≤ p ∧ names[i]? = some u ∧ names[j]? = some v ∧
    w k i j ≠ 0 ∧ thr ≤ |w k i j| ∧ e = ⟨lagName u k, lagName v 0, w k i j, origin⟩
  edges_nodup : (g.edges.map fun e => (e.src, e.dst)).Nodup

/-- The arrays are acceptable: not empty, equally many rows, and the columns of the second are a multiple
of those of the first. -/
def Shapes (X Xlags : Data K) : Prop :=
  X.rows ≠ 0 ∧ X.cols ≠ 0 ∧ Xlags.cols ≠ 0 ∧ X.rows = Xlags.rows ∧ X.cols ∣ Xlags.cols

end

/-- All names used to exclude edges are columns. -/
def TabuKnown {C : Type} (cols : List C) (t : Tabu C) : Prop :=
  (∀ te, t.edges = some te → ∀ e ∈ te, e.2.1 ∈ cols ∧ e.2.2 ∈ cols) ∧
  (∀ tp, t.parents = some tp → ∀ n ∈ tp, n ∈ cols) ∧ ∀ tc, t.children = some tc → ∀ n ∈ tc, n ∈ cols

/-- The excluded edges and nodes `t'`, given by column positions, are those of `t`, given by names. -/
structure TabuNamed {C : Type} (cols : List C) (t : Tabu C) (t' : Tabu ℕ) : Prop where
  edges : Option.Rel (List.Forall₂ fun e e' => e'.1 = e.1 ∧ cols[e'.2.1]? = some e.2.1 ∧
    cols[e'.2.2]? = some e.2.2) t.edges t'.edges
  parents : Option.Rel (List.Forall₂ fun n i => cols[i]? = some n) t.parents t'.parents
  children : Option.Rel (List.Forall₂ fun n i => cols[i]? = some n) t.children t'.children

end Verif.Dynotears
