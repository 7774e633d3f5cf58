import Verif.Generators.Spec
import Verif.Generators.Law.Count
import Mathlib.Probability.Independence.Basic
import Mathlib.Data.Fintype.Perm

/-!
# Specification of the law of random structures (C124)
-/

namespace Verif.Generators

open MeasureTheory ProbabilityTheory Verif.Notears

variable {n : ℕ} {Ω : Type} [MeasurableSpace Ω]

/-- Names of the random numbers drawn by `generate_structure`. -/
inductive StructIx (n : ℕ)
  | rand (i j : Fin n)
  | unif (i j : Fin n)
  | sign (i j : Fin n)
  | pick (i k : ℕ)
  deriving DecidableEq

/-- The random number with this name. -/
def Draws.value (r : Draws ℝ n) : StructIx n → ℝ
  | .rand i j => r.rand i j
  | .unif i j => r.unif i j
  | .sign i j => r.sign i j
  | .pick i k => r.pick i k

/-- The number of elements of the bag in turn `i`, if `m` elements are drawn in each turn: the first node, and for every earlier turn its
node and the drawn ones. -/
def bagSize (m i : ℕ) : ℕ := 1 + (i - 1) * (m + 1)

/-- The random numbers of `generate_structure` are independent and distributed as `np.random` documents: `rand` and `uniform` give
uniform numbers, `permutation` every order with the same probability, and `choice` every element of the bag with the same probability. -/
structure RandomStructure (m : ℕ) (P : Measure Ω) (D : Ω → Draws ℝ n) : Prop where
  uniform : ∀ ω, (D ω).Uniform
  measurable : ∀ i, Measurable fun ω => (D ω).value i
  measurable_perm : ∀ σ, MeasurableSet {ω | (D ω).perm = σ}
  rand : ∀ i j, P.map (fun ω => (D ω).rand i j) = uniformLaw
  unif : ∀ i j, P.map (fun ω => (D ω).unif i j) = uniformLaw
  sign : ∀ i j, P.map (fun ω => (D ω).sign i j) = uniformLaw
  pick : ∀ i k x, x < bagSize m i → P {ω | (D ω).pick i k = x} = (bagSize m i : ENNReal)⁻¹
  perm : ∀ σ, P {ω | (D ω).perm = σ} = (n.factorial : ENNReal)⁻¹
  indep : iIndepFun (fun i ω => (D ω).value i) P
  indep_perm : ∀ σ (A : Set (StructIx n → ℝ)), MeasurableSet A →
    P ({ω | (D ω).perm = σ} ∩ {ω | (D ω).value ∈ A}) = P {ω | (D ω).perm = σ} * P {ω | (D ω).value ∈ A}

/-- The graph has exactly the edges in `G`, and the weight of the edge `e` is in `B e`. -/
def Shows (g : Graph ℕ ℝ) (G : Finset (Fin n × Fin n)) (B : Fin n × Fin n → Set ℝ) : Prop :=
  (∀ e ∈ g.edges, ∃ c ∈ G, e.src = c.1 ∧ e.dst = c.2 ∧ e.weight ∈ B c) ∧
  ∀ c ∈ G, ∃ e ∈ g.edges, e.src = c.1 ∧ e.dst = c.2

/-- The distribution of a weight: uniform between `a` and `b` or between `-b` and `-a`, each with probability 1/2. -/
noncomputable def weightLaw (a b : ℝ) (B : Set ℝ) : ENNReal :=
  2⁻¹ * uniformLaw {u | a + (b - a) * u ∈ B} + 2⁻¹ * uniformLaw {u | -(a + (b - a) * u) ∈ B}

/-- The number of orders of the nodes in which every edge points forward. -/
noncomputable def orders (G : Finset (Fin n × Fin n)) : ℕ :=
  by classical exact ((Finset.univ : Finset (Equiv.Perm (Fin n))).filter fun σ => ∀ e ∈ G, σ e.1 < σ e.2).card

/-- The number of edges at the node `v`, in and out. -/
def degreeAt (g : Graph ℕ ℝ) (v : ℕ) : ℕ := (g.edges.filter fun e => e.src = v ∨ e.dst = v).length

end Verif.Generators
