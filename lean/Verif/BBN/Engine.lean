import Verif.BBN.PropsTree

/-!
# Model of `causalnex.inference.InferenceEngine`

Operations return the engine they leave behind together with their outcome, so that what a raised
exception leaves behind is visible.
-/

namespace Verif.BBN

/-- A conditional probability table of a fitted network (a pandas frame): row labels, names of the
column levels, and the entries.  Simplification: the frame is complete, so it is a function. -/
structure Frame (V S K : Type) where
  index : List S
  parents : List V
  p : S → List S → K

/-- One entry of `self._cpds`: `{state: {((parent, value), …): probability}}`.
`inference/inference.py:241-276`.  Simplification: the states are kept as a set, as the order of
the dict is not observable; all states have the same complete set of parent configurations. -/
structure Cpd (V S K : Type) where
  states : Finset S
  parents : List V
  p : S → List S → K

/-- The state of an `InferenceEngine`.  `cpds` and `orig` are `_cpds` and `_cpds_original`, `dom` is
`_domains`, `fns` is `_node_functions` and `bbn` the nodes of `_bbn`.  Simplification: the node
functions read `_cpds` when they are called; here they capture it when they are created, and
they are recreated after each assignment to `_cpds`. -/
structure Engine (V S K : Type) where
  dom : V → List S
  cpds : List (V × Cpd V S K)
  orig : List (V × Cpd V S K)
  fns : List (V × Factor V S K)
  bbn : List (Node V S K)

/-- A Python dict from states to numbers. Simplification: insertion order is not kept. -/
structure Dist (S K : Type) where
  keys : Finset S
  val : S → K

/-- The `state` argument of `do_intervention`. -/
inductive DoArg (S K : Type)
  /-- a state label; `isInt` tells whether `isinstance(state, int)` holds -/
  | label (isInt : Bool) (s : S)
  /-- a dict -/
  | dist (d : Dist S K)

section
variable {V S K : Type} [LinearOrder V] [DecidableEq S]

/-- `_create_node_function`: the first argument is the node, the others its conditions.
`inference/inference.py:278-319`. -/
def cpdFactor (q : V × Cpd V S K) [Zero K] : Factor V S K :=
  ⟨q.1 :: q.2.parents, fun | s :: ps => q.2.p s ps | [] => 0⟩

/-- `_create_node_functions`: `inference/inference.py:321-340`. -/
def createFns [Zero K] (cpds : List (V × Cpd V S K)) : List (V × Factor V S K) :=
  cpds.map fun q => (q.1, cpdFactor q)

/-- `_generate_bbn`: `inference/inference.py:227-233`, with `build_bbn`
(`ebaybbn/bbn.py:722-769`). -/
def Engine.generate [Zero K] (e : Engine V S K) : Engine V S K × Except Err Unit :=
  let e := { e with fns := createFns e.cpds }
  match getOriginalFactors (e.fns.map Prod.snd) with
  | .error err => (e, .error err)
  | .ok nodes => ({ e with bbn := nodes }, .ok ())

/-- `_create_cpds_dict_bn`: `inference/inference.py:241-276`. -/
def cpdsOf (bn : List (V × Frame V S K)) : List (V × Cpd V S K) :=
  bn.map fun q => (q.1, ⟨q.2.index.toFinset, q.2.parents, q.2.p⟩)

/-- `_generate_domains_bn`: `inference/inference.py:235-239`. -/
def domOf (bn : List (V × Frame V S K)) (v : V) : List S :=
  match bn.lookup v with
  | some f => f.index
  | none => []

/-- `InferenceEngine.__init__`: `inference/inference.py:91-124`.  `okName` is the match of
`^[0-9a-zA-Z_]+$`; `bn` is `bn.cpds`, and its keys are the nodes of the network. -/
def Engine.create [Zero K] (okName : V → Bool) (bn : List (V × Frame V S K)) :
    Except Err (Engine V S K) :=
  if bn.any (fun q => !okName q.1) then .error .valueError
  else if bn.isEmpty then .error .valueError
  else
    match (⟨domOf bn, cpdsOf bn, cpdsOf bn, [], []⟩ : Engine V S K).generate with
    | (e, .ok ()) => .ok e
    | (_, .error err) => .error err

/-- Assignment to an existing key of `_cpds`. -/
def setCpd (cpds : List (V × Cpd V S K)) (v : V) (c : Cpd V S K) : List (V × Cpd V S K) :=
  cpds.map fun q => if q.1 = v then (v, c) else q

/-- The CPD an intervention installs: `inference/inference.py:179`. -/
def interventionCpd [Zero K] (V : Type) (d : Dist S K) : Cpd V S K :=
  ⟨d.keys, [], fun s _ => if s ∈ d.keys then d.val s else 0⟩

/-- `InferenceEngine.query`: `inference/inference.py:126-149`. -/
def Engine.query [Add K] [Mul K] [Div K] [Zero K] [One K] [DecidableEq K] (nd : Nondet V)
    (e : Engine V S K) (ev : List (V × S)) : Except Err (List (V × List (S × K))) := do
  let res ← Verif.BBN.query nd e.dom e.bbn ev
  return e.cpds.map fun q =>
    (q.1, (res.filter (·.1.1 = q.1)).map fun m => (m.1.2, m.2))

/-- `reset_do`: `inference/inference.py:216-225`. -/
def Engine.resetDo [Zero K] (e : Engine V S K) (v : V) : Engine V S K × Except Err Unit :=
  match e.orig.lookup v with
  | none => (e, .error .keyError)
  | some c => ({ e with cpds := setCpd e.cpds v c } : Engine V S K).generate

variable [Field K] [LinearOrder K]

/-- `_do`: `inference/inference.py:151-179`. -/
def Engine.do_ (e : Engine V S K) (v : V) (d : Dist S K) : Engine V S K × Except Err Unit :=
  if ∑ s ∈ d.keys, d.val s ≠ 1 then (e, .error .valueError)
  else if (∃ s ∈ d.keys, 1 < d.val s) ∨ ∃ s ∈ d.keys, d.val s < 0 then (e, .error .valueError)
  else
    match e.orig.lookup v with
    | none => (e, .error .keyError)
    | some c =>
      if d.keys ≠ c.states then (e, .error .valueError)
      else ({ e with cpds := setCpd e.cpds v (interventionCpd V d) }, .ok ())

/-- `do_intervention`: `inference/inference.py:181-214`.  A state that is neither an `int` nor a
dict has no `values`. -/
def Engine.doIntervention (e : Engine V S K) (v : V) (a : DoArg S K) :
    Engine V S K × Except Err Unit :=
  if !(e.fns.any fun f => decide (v ∈ f.2.args.tail)) then (e, .error .valueError)
  else
    let d : Except Err (Dist S K) :=
      match a with
      | .dist d => .ok d
      | .label true s =>
        match e.cpds.lookup v with
        | none => .error .keyError
        | some c => .ok ⟨c.states, fun t => if t = s then 1 else 0⟩
      | .label false _ => .error .attributeError
    match d with
    | .error err => (e, .error err)
    | .ok d =>
      match e.do_ v d with
      | (e, .error err) => (e, .error err)
      | (e, .ok ()) => e.generate

/-- The operations of an engine. -/
inductive Op (V S K : Type)
  | doIt (v : V) (a : DoArg S K)
  | reset (v : V)
  | query (ev : List (V × S))

/-- The engine left behind by an operation, whether it raised or not. -/
def Engine.step (nd : Nondet V) (e : Engine V S K) : Op V S K → Engine V S K
  | .doIt v a => (e.doIntervention v a).1
  | .reset v => (e.resetDo v).1
  | .query ev =>
    match e.query nd ev with
    | _ => e

/-- The engine after a history of operations. -/
def Engine.run (nd : Nondet V) (e : Engine V S K) (ops : List (Op V S K)) : Engine V S K :=
  ops.foldl (Engine.step nd) e

end

end Verif.BBN
