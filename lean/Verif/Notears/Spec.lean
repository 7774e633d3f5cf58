import Verif.Notears.Model

/-!
# Specification for structure learning
-/

namespace Verif.Notears

section
variable {K : Type} [Field K] [LinearOrder K]

/-- A vector within bounds. -/
def InBox (bnds : List (Bound K)) (w : List K) : Prop :=
  List.Forall₂ (fun b x => (∀ l, b.1 = some l → l ≤ x) ∧ ∀ u, b.2 = some u → x ≤ u) bnds w

/-- An optimiser that, started within the bounds, returns a point within the bounds (whatever the
objective is). -/
def RespectsBounds (minimize : Minimizer K) : Prop :=
  ∀ k f g w bnds, InBox bnds w → InBox bnds (minimize k f g w bnds)

/-- An edge from `u` to `v` is not excluded by the user: not a self loop, not a tabu edge, not from a
tabu parent, not into a tabu child. -/
def Permitted {N : Type} (t : Tabu N) (u v : N) : Prop :=
  u ≠ v ∧ (∀ te, t.edges = some te → (u, v) ∉ te) ∧ (∀ tp, t.parents = some tp → u ∉ tp) ∧
    ∀ tc, t.children = some tc → v ∉ tc

/-- `w` was returned by a call of the optimiser for the problem `P` and the bounds `bnds`. -/
def Returned (P : Problem K) (minimize : Minimizer K) (bnds : List (Bound K)) (w : List K) : Prop :=
  ∃ k rho alpha start, w = minimize k (P.func rho alpha) (P.grad rho alpha) start bnds

/-- All acyclicity scores are finite. -/
def FiniteScores (P : Problem K) : Prop := ∀ w, P.score w ≠ ⊤

/-- The edge `e'` between names corresponds to the edge `e` between column positions. -/
def EdgeNamed {C : Type} (cols : List C) (e : Edge ℕ K) (e' : Edge C K) : Prop :=
  cols[e.src]? = some e'.src ∧ cols[e.dst]? = some e'.dst ∧ e'.weight = e.weight ∧ e'.origin = "learned"

end

/-- The excluded edges and nodes `t'`, given by column positions, are those of `t`, given by names. -/
structure TabuNamed {C : Type} (cols : List C) (t : Tabu C) (t' : Tabu ℕ) : Prop where
  edges : Option.Rel (List.Forall₂ fun e e' => cols[e'.1]? = some e.1 ∧ cols[e'.2]? = some e.2)
    t.edges t'.edges
  parents : Option.Rel (List.Forall₂ fun n i => cols[i]? = some n) t.parents t'.parents
  children : Option.Rel (List.Forall₂ fun n i => cols[i]? = some n) t.children t'.children

/-- All names used to exclude edges are columns. -/
def TabuKnown {C : Type} (cols : List C) (t : Tabu C) : Prop :=
  (∀ te, t.edges = some te → ∀ e ∈ te, e.1 ∈ cols ∧ e.2 ∈ cols) ∧
  (∀ tp, t.parents = some tp → ∀ n ∈ tp, n ∈ cols) ∧ ∀ tc, t.children = some tc → ∀ n ∈ tc, n ∈ cols

end Verif.Notears
