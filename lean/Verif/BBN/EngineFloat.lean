import Verif.BBN.EngineProps
import Verif.BBN.RoundingProps
import Verif.Float.Sum

/-!
# Model of `InferenceEngine` on floats

The tables and the arguments of interventions are floats, every arithmetic operation rounds.  Construction, `reset_do` and `query` are
those of `Verif.BBN.Engine`, run on rounded numbers.  Dictionaries passed to `do_intervention` keep their order, because the check of
their sum depends on it.
-/

namespace Verif.BBN

/-- The `state` argument of `do_intervention`. -/
inductive FlArg (S : Type) (rd : ℚ → ℚ)
  /-- a state label; `isInt` tells whether `isinstance(state, int)` holds -/
  | label (isInt : Bool) (s : S)
  /-- a dict, in its order -/
  | dict (d : List (S × Fl rd))

section
variable {V S : Type} [LinearOrder V] [DecidableEq S] {rd : ℚ → ℚ}

/-- The entries of a dict, without their order. -/
def distOf (d : List (S × Fl rd)) : Dist S (Fl rd) := ⟨(d.map Prod.fst).toFinset, fun s => (d.lookup s).getD 0⟩

/-- `sum(values)`: `inference/inference.py:163`. -/
def pySum (l : List (Fl rd)) : Fl rd := l.foldl (· + ·) 0

/-- `_do`: `inference/inference.py:151-179`. -/
def Engine.doFl_ (e : Engine V S (Fl rd)) (v : V) (d : List (S × Fl rd)) : Engine V S (Fl rd) × Except Err Unit :=
  if pySum (d.map Prod.snd) ≠ 1 then (e, .error .valueError)
  else if (∃ q ∈ d, 1 < q.2.val) ∨ ∃ q ∈ d, q.2.val < 0 then (e, .error .valueError)
  else
    match e.orig.lookup v with
    | none => (e, .error .keyError)
    | some c =>
      if (d.map Prod.fst).toFinset ≠ c.states then (e, .error .valueError)
      else ({ e with cpds := setCpd e.cpds v (interventionCpd V (distOf d)) }, .ok ())

/-- `do_intervention`: `inference/inference.py:181-214`.  Simplification: the dict made from a label (line 211) lists the states in the order
of the domain; all its values but one are zero, so that its sum does not depend on the order. -/
def Engine.doFl (e : Engine V S (Fl rd)) (v : V) (a : FlArg S rd) : Engine V S (Fl rd) × Except Err Unit :=
  if !(e.fns.any fun f => decide (v ∈ f.2.args.tail)) then (e, .error .valueError)
  else
    let d : Except Err (List (S × Fl rd)) :=
      match a with
      | .dict d => .ok d
      | .label true s =>
        match e.cpds.lookup v with
        | none => .error .keyError
        | some c => .ok (((e.dom v).filter (· ∈ c.states)).map fun t => (t, if t = s then 1 else 0))
      | .label false _ => .error .attributeError
    match d with
    | .error err => (e, .error err)
    | .ok d =>
      match e.doFl_ v d with
      | (e, .error err) => (e, .error err)
      | (e, .ok ()) => e.generate

/-- The operations of an engine. -/
inductive FlOp (V S : Type) (rd : ℚ → ℚ)
  | doIt (v : V) (a : FlArg S rd)
  | reset (v : V)
  | query (ev : List (V × S))

/-- The engine left behind by an operation, whether it raised or not. -/
def Engine.stepFl (nd : Nondet V) (e : Engine V S (Fl rd)) : FlOp V S rd → Engine V S (Fl rd)
  | .doIt v a => (e.doFl v a).1
  | .reset v => (e.resetDo v).1
  | .query ev =>
    match e.query nd ev with
    | _ => e

/-- The engine after a history of operations. -/
def Engine.runFl (nd : Nondet V) (e : Engine V S (Fl rd)) (ops : List (FlOp V S rd)) : Engine V S (Fl rd) :=
  ops.foldl (Engine.stepFl nd) e

end

end Verif.BBN
