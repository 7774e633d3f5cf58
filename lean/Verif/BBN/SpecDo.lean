import Verif.BBN.Spec

/-!
# Specification of interventions
-/

namespace Verif.BBN

section
variable {V S K : Type} [LinearOrder V] [DecidableEq S]

/-- Total weight, under the weight function `J`, of the assignments to `vs` satisfying `A`. -/
def massWith [Semiring K] (dom : V → List S) (vs : List V) (J : (V → S) → K) (x₀ : V → S)
    (A : (V → S) → Prop) [DecidablePred A] : K :=
  (((worlds dom vs x₀).filter fun x => A x).map J).sum

/-- The truncated factorisation: the factor of `v` is replaced by the distribution `d`, the factors
of all other variables are kept. -/
def truncated [Mul K] [One K] (nodes : List (Node V S K)) (v : V) (d : S → K) (x : V → S) : K :=
  d (x v) * ((nodes.filter fun n => n.var ≠ v).map fun n => n.fn (n.args.map x)).prod

/-- `w` is `v` or can be reached from it along arrows. -/
def DescendantOrSelf (nodes : List (Node V S K)) (v w : V) : Prop :=
  Relation.ReflTransGen (Graph.EdgeRel (arrows nodes)) v w

/-- A query result reports, for exactly the variables `vs`, exactly the states of each variable,
each with the probability `P`. -/
structure Reports (dom : V → List S) (vs : List V) (P : V → S → K)
    (out : List (V × List (S × K))) : Prop where
  vars : out.map Prod.fst = vs
  states : ∀ q ∈ out, (q.2.map Prod.fst).Perm (dom q.1)
  probs : ∀ q ∈ out, ∀ r ∈ q.2, r.2 = P q.1 r.1

end

end Verif.BBN
