import Verif.BBN.EngineProps

/-!
# C139: what it means that two networks are the same up to names

Nodes are renamed by `f`, and the states of the node `v` by `φ v`.
-/

namespace Verif.BBN

open Function

variable {V S V₂ S₂ K : Type}

/-- The assignment `y` gives the nodes `vs` the same states as `x`, under their new names. -/
def SameWorld (f : V → V₂) (φ : V → S → S₂) (vs : List V) (x : V → S) (y : V₂ → S₂) : Prop := ∀ v ∈ vs, y (f v) = φ v (x v)

section
variable [LinearOrder V] [LinearOrder V₂] [DecidableEq S] [DecidableEq S₂]

/-- Specification: the network `bn₂` is the network `bn` with other names for nodes and states.  Nodes, states and parents may be listed in
another order; the same combination of states has the same conditional probability. -/
structure SameNet (f : V → V₂) (φ : V → S → S₂) (bn : List (V × Frame V S K)) (bn₂ : List (V₂ × Frame V₂ S₂ K)) : Prop where
  inj : Injective f
  inj_states : ∀ v, Injective (φ v)
  nodes : (bn₂.map Prod.fst).Perm ((bn.map Prod.fst).map f)
  states : ∀ v F F₂, (v, F) ∈ bn → (f v, F₂) ∈ bn₂ → F₂.index.Perm (F.index.map (φ v))
  parents : ∀ v F F₂, (v, F) ∈ bn → (f v, F₂) ∈ bn₂ → F₂.parents.Perm (F.parents.map f)
  probs : ∀ v F F₂, (v, F) ∈ bn → (f v, F₂) ∈ bn₂ → ∀ x y, SameWorld f φ (bn.map Prod.fst) x y →
    (∀ w ∈ bn.map Prod.fst, x w ∈ domOf bn w) → F₂.p (y (f v)) (F₂.parents.map y) = F.p (x v) (F.parents.map x)

/-- Specification: two arguments of `do_intervention` that are the same, up to the names of the states. -/
inductive RenamedArg (g : S → S₂) : DoArg S K → DoArg S₂ K → Prop
  | label (b : Bool) (s : S) : RenamedArg g (.label b s) (.label b (g s))
  | dist (d : Dist S K) (d₂ : Dist S₂ K) : d₂.keys = d.keys.image g → (∀ s ∈ d.keys, d₂.val (g s) = d.val s) →
      RenamedArg g (.dist d) (.dist d₂)

/-- Specification: two operations that are the same, up to names. -/
inductive RenamedOp (f : V → V₂) (φ : V → S → S₂) : Op V S K → Op V₂ S₂ K → Prop
  | doIt (v : V) (a : DoArg S K) (a₂ : DoArg S₂ K) : RenamedArg (φ v) a a₂ → RenamedOp f φ (.doIt v a) (.doIt (f v) a₂)
  | reset (v : V) : RenamedOp f φ (.reset v) (.reset (f v))
  | query (ev : List (V × S)) (ev₂ : List (V₂ × S₂)) : RenamedOp f φ (.query ev) (.query ev₂)

/-- Specification: two answers that are the same, up to names and the order of nodes and states. -/
structure SameAnswer (f : V → V₂) (φ : V → S → S₂) (out : List (V × List (S × K))) (out₂ : List (V₂ × List (S₂ × K))) : Prop where
  nodes : (out₂.map Prod.fst).Perm ((out.map Prod.fst).map f)
  probs : ∀ v l l₂, (v, l) ∈ out → (f v, l₂) ∈ out₂ → l₂.Perm (l.map fun r => (φ v r.1, r.2))

end

end Verif.BBN
