import Verif.Generators.DynamicSpec
import Verif.Generators.Law.StructSpec

/-!
# Specification of the law of random dynamic structures (C152)
-/

namespace Verif.Generators

open MeasureTheory ProbabilityTheory Verif.Notears Verif.Str Verif.Dynotears

variable {n p : ℕ} {Ω : Type} [MeasurableSpace Ω]

/-- Names of the random numbers drawn for edges from the past: for the lag `l + 1`, from the variable `i` to the variable `j`. -/
inductive InterIx (n p : ℕ)
  | rand (l : Fin p) (i j : Fin n)
  | unif (l : Fin p) (i j : Fin n)
  | sign (l : Fin p) (i j : Fin n)
  deriving DecidableEq

/-- The random number with this name. -/
def InterDraws.value (r : InterDraws ℝ) : InterIx n p → ℝ
  | .rand l i j => r.rand (l * n + i) j
  | .unif l i j => r.unif l i j
  | .sign l i j => r.sign l i j

/-- The random numbers of `generate_structure_dynamic` are independent and distributed as `np.random` documents. -/
structure RandomDynamic (m p : ℕ) (P : Measure Ω) (D : Ω → Draws ℝ n) (D' : Ω → InterDraws ℝ) : Prop where
  intra : RandomStructure m P D
  uniform : ∀ ω, (D' ω).Uniform
  measurable : ∀ i : InterIx n p, Measurable fun ω => (D' ω).value i
  law : ∀ i : InterIx n p, P.map (fun ω => (D' ω).value i) = uniformLaw
  indep : iIndepFun (fun (i : InterIx n p) ω => (D' ω).value i) P
  indep_intra : ∀ σ (A : Set (StructIx n → ℝ)) (T : Set (InterIx n p → ℝ)), MeasurableSet A → MeasurableSet T →
    P (({ω | (D ω).perm = σ} ∩ {ω | (D ω).value ∈ A}) ∩ {ω | (D' ω).value ∈ T}) =
      P ({ω | (D ω).perm = σ} ∩ {ω | (D ω).value ∈ A}) * P {ω | (D' ω).value ∈ T}

/-- The graph has exactly the edges in `G` within the present, with weights in `B`, and exactly the edges in `G'` from the past, with
weights in `B'`; the triple `(l, i, j)` stands for the edge from the variable `i`, lag `l + 1`, to the variable `j`. -/
structure ShowsDyn (g : Graph Str ℝ) (G : Finset (Fin n × Fin n)) (B : Fin n × Fin n → Set ℝ) (G' : Finset (Fin p × Fin n × Fin n))
    (B' : Fin p × Fin n × Fin n → Set ℝ) : Prop where
  edges : ∀ e ∈ g.edges,
    (∃ c ∈ G, e.src = lagName (natStr c.1) 0 ∧ e.dst = lagName (natStr c.2) 0 ∧ e.weight ∈ B c) ∨
    ∃ c ∈ G', e.src = lagName (natStr c.2.1) (c.1 + 1) ∧ e.dst = lagName (natStr c.2.2) 0 ∧ e.weight ∈ B' c
  intra : ∀ c ∈ G, ∃ e ∈ g.edges, e.src = lagName (natStr c.1) 0 ∧ e.dst = lagName (natStr c.2) 0
  inter : ∀ c ∈ G', ∃ e ∈ g.edges, e.src = lagName (natStr c.2.1) (c.1 + 1) ∧ e.dst = lagName (natStr c.2.2) 0

/-- The number of edges that leave the node `v`. -/
def outDegree (g : Graph Str ℝ) (v : Str) : ℕ := (g.edges.filter fun e => e.src = v).length

/-- The number of edges from the past that end in the node `v`: those that do not start in a node with lag 0. -/
def inDegreePast (n : ℕ) (g : Graph Str ℝ) (v : Str) : ℕ :=
  (g.edges.filter fun e => e.dst = v ∧ e.src ∉ (List.range n).map fun i => lagName (natStr i) 0).length

/-- A number that belongs to the structure that is generated; 0 if there is none. -/
def countOf (r : Except Err (Graph Str ℝ)) (f : Graph Str ℝ → ℕ) : ℕ := match r with
  | .ok g => f g
  | .error _ => 0

end Verif.Generators
