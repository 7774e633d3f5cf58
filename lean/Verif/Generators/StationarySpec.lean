import Verif.Generators.Stationary
import Verif.Generators.DynamicSpec

/-!
# Specification of `gen_stationary_dyn_net_and_df`
-/

namespace Verif.Generators

open Verif.Notears (Graph)
open Verif.Str (Str natStr)
open Verif.Dynotears (lagName)

section
variable {K : Type} [Field K] [LinearOrder K]

/-- The graph has an edge within the present and an edge from the past. -/
def BothKinds (g : Graph Str K) : Prop :=
  (∃ i j, (lagName (natStr i) 0, lagName (natStr j) 0) ∈ pairs g) ∧
    ∃ i k j, k ≠ 0 ∧ (lagName (natStr i) k, lagName (natStr j) 0) ∈ pairs g

/-- The graphs that are wanted: with edges of both kinds, unless a degree is 0. -/
def Wanted (a : DynParams K) (g : Graph Str K) : Prop := BothKinds g ∨ a.degreeIntra = 0 ∨ a.degreeInter = 0

/-- `g` is the `k`-th graph made in the attempt. -/
def Attempt.Makes [FloorRing K] (x : StatArgs K) (A : Attempt K x.n) (k : ℕ) (g : Graph Str K) : Prop :=
  ∃ r r', A.graphs k = some (r, r') ∧ generateDynamic x.n x.p x.dyn r r' = .ok g

/-- `g` is the first wanted graph made in the attempt. -/
def Attempt.Finds [FloorRing K] (x : StatArgs K) (A : Attempt K x.n) (g : Graph Str K) : Prop :=
  ∃ k, A.Makes x k g ∧ Wanted x.dyn g ∧ ∀ l < k, ∃ g', A.Makes x l g' ∧ ¬ Wanted x.dyn g'

/-- The attempt has a graph and data whose values are all smaller than 1000 (and there is a value). -/
def Attempt.Succeeds [FloorRing K] (x : StatArgs K) (order : Graph Str K → List ℕ) (A : Attempt K x.n) (g : Graph Str K) : Prop :=
  A.Finds x g ∧ A.lost = false ∧ x.nSamples ≠ 0 ∧
    ∃ F, generateDataframe g (x.nSamples + statBurnIn x.nSamples) 100 x.semType none A.noise (order g) = .ok F ∧
      ∀ v ∈ g.nodes, ∀ t < x.nSamples, ∃ y, F.get v (statBurnIn x.nSamples + t) = some y ∧ |y| < 1000

/-- The attempt ends: after at most `fuel` graphs, the last is wanted or its computation fails. -/
def Attempt.Ends [FloorRing K] (x : StatArgs K) (A : Attempt K x.n) (fuel : ℕ) : Prop :=
  ∃ k < fuel, A.graphs k = none ∨ ∃ g, A.Makes x k g ∧ Wanted x.dyn g

/-- The arguments that `generate_structure_dynamic` and `generate_dataframe_dynamic` accept. -/
def StatArgs.Valid (x : StatArgs K) : Prop :=
  2 ≤ x.n ∧ |x.dyn.wMinIntra| ≤ |x.dyn.wMaxIntra| ∧
    (x.dyn.typeIntra = "erdos-renyi" ∨ x.dyn.typeIntra = "full" ∨ x.dyn.typeIntra = "barabasi-albert" ∧ -1 ≤ x.dyn.degreeIntra) ∧
    x.dyn.wMinInter ≤ x.dyn.wMaxInter ∧ (x.dyn.typeInter = "erdos-renyi" ∨ x.dyn.typeInter = "full") ∧
    x.semType ∈ ["linear-gauss", "linear-exp", "linear-gumbel"]

/-- Uniform random numbers are at least 0 and less than 1. -/
def Attempt.Uniform {n : ℕ} (A : Attempt K n) : Prop := ∀ k r r', A.graphs k = some (r, r') → r.Uniform ∧ r'.Uniform

/-- `order` gives topological orders. -/
def Sorts (order : Graph Str K → List ℕ) : Prop :=
  ∀ g : Graph Str K, let w := fun i j => weightIn g ((intraNodes g).getD i []) ((intraNodes g).getD j [])
    Verif.Graph.Acyclic (intraEdges (intraNodes g).length w) →
      IsTopo (List.range (intraNodes g).length) (intraEdges (intraNodes g).length w) (order g)

/-- The frame has the last rows of `F`, one column per node, first the present ones. -/
structure LastRows (g : Graph Str K) (F : DataFrame K) (first : ℕ) (G : DataFrame K) : Prop where
  names : G.cols.map Prod.fst = intraNodes g ++ interNodes g
  rows : G.rows = F.rows - first
  values : ∀ v ∈ g.nodes, ∀ t < G.rows, G.get v t = F.get v (first + t)

end

end Verif.Generators
