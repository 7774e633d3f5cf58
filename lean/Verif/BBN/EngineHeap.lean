import Verif.BBN.QueryCongr
import Verif.BBN.EngineProps

/-!
# `InferenceEngine` on a heap of mutable Python objects

`Verif.BBN.Engine` treats dictionaries as values.  Python's are mutable objects, and variables hold
references to them: `reset_do` makes `_cpds` and `_cpds_original` share a dictionary, node
functions read `_cpds` when they are called, and callers keep references to the dictionaries they pass in
and get back.  Here every dictionary is an object on a heap, and a history of calls by a caller
who may also change all objects it has a reference to is run on it.  `Verif.BBN.EngineHeapSpec` has the
same history with nothing shared.
-/

namespace Verif.BBN

/-- An address on the heap. -/
abbrev Ref := ℕ

/-- What a caller passes in or gets back: a dict of observations `{node: state}`, or a dict
`{state: number}`, in insertion order. -/
inductive Data (V S K : Type)
  | obs (l : List (V × S))
  | dist (l : List (S × K))
  deriving DecidableEq

/-- A Python dict has each key once. -/
def Data.Valid {V S K : Type} : Data V S K → Prop
  | .obs l => (l.map Prod.fst).Nodup
  | .dist l => (l.map Prod.fst).Nodup

/-- A mutable object.  `cpds` is `_cpds` or `_cpds_original`, `states` one of its values, `conds` one of
the values of those: `inference/inference.py:241-276`.  `domains` is `_domains` and `labels` one of its
values: `inference/inference.py:235-239`.  `net` stands for the probability tables of a
`BayesianNetwork`; the frames `bn.cpds` hands out are views of them, so that writing to such a frame writes to the
object. -/
inductive Obj (V S K : Type)
  | cpds (l : List (V × Ref))
  | states (l : List (S × Ref))
  | conds (l : List (Key V S × K))
  | domains (l : List (V × Ref))
  | labels (l : List S)
  | net (bn : List (V × Frame V S K))
  | data (d : Data V S K)

/-- The objects by address; objects are never freed. -/
abbrev Heap (V S K : Type) := List (Obj V S K)

/-- An `InferenceEngine`: references to `_cpds`, `_cpds_original` and `_domains`; for each of the
`_node_functions` the node and the names of the arguments (the body looks up `self._cpds` when it is called); the nodes of
`_bbn` with the arguments of their functions. -/
structure HEngine (V : Type) where
  cpds : Ref
  orig : Ref
  doms : Ref
  fns : List (V × List V)
  bbn : List (V × List V)

/-- Everything there is: the heap, the networks and engines created so far, and the references to
dictionaries the caller holds. -/
structure World (V S K : Type) where
  heap : Heap V S K
  nets : List Ref
  handles : List Ref
  engines : List (HEngine V)

/-- The contents of a nested dict `{node: {state: {conditions: probability}}}`. -/
abbrev Nested (V S K : Type) := List (V × List (S × List (Key V S × K)))

section
variable {V S K : Type}

/-! ### Reading and creating nested dictionaries -/

/-- A new object. -/
def alloc (h : Heap V S K) (o : Obj V S K) : Heap V S K × Ref := (h ++ [o], h.length)

/-- A dict comprehension whose values are new objects. -/
def allocEach {α β : Type} (f : Heap V S K → β → Heap V S K × Ref) :
    Heap V S K → List (α × β) → Heap V S K × List (α × Ref)
  | h, [] => (h, [])
  | h, q :: l =>
    let (h₁, r) := f h q.2
    let (h₂, rs) := allocEach f h₁ l
    (h₂, (q.1, r) :: rs)

/-- `{state: {conditions: probability}}`. -/
def newStates (h : Heap V S K) (st : List (S × List (Key V S × K))) : Heap V S K × Ref :=
  let (h₁, l) := allocEach (fun h c => alloc h (.conds c)) h st
  alloc h₁ (.states l)

/-- `{node: {state: {conditions: probability}}}`. -/
def newCpds (h : Heap V S K) (N : Nested V S K) : Heap V S K × Ref :=
  let (h₁, l) := allocEach newStates h N
  alloc h₁ (.cpds l)

/-- The dict of conditions at an address. -/
def getConds (h : Heap V S K) (r : Ref) : Option (List (Key V S × K)) :=
  match h[r]? with
  | some (.conds l) => some l
  | _ => none

/-- The references in the dict of states at an address. -/
def getStates (h : Heap V S K) (r : Ref) : Option (List (S × Ref)) :=
  match h[r]? with
  | some (.states l) => some l
  | _ => none

/-- The references in the dict of nodes at an address. -/
def getCpds (h : Heap V S K) (r : Ref) : Option (List (V × Ref)) :=
  match h[r]? with
  | some (.cpds l) => some l
  | _ => none

/-- Follow the references of a dict. -/
def readEach {α β : Type} (f : Ref → Option β) : List (α × Ref) → Option (List (α × β))
  | [] => some []
  | q :: l =>
    match f q.2, readEach f l with
    | some b, some bs => some ((q.1, b) :: bs)
    | _, _ => none

/-- The current contents of the dict of states at an address. -/
def readStates (h : Heap V S K) (r : Ref) : Option (List (S × List (Key V S × K))) :=
  (getStates h r).bind (readEach (getConds h))

/-- The current contents of the nested dict at an address. -/
def readCpds (h : Heap V S K) (r : Ref) : Option (Nested V S K) :=
  (getCpds h r).bind (readEach (readStates h))

/-- `copy.deepcopy` of a nested dict: `inference/inference.py:276`.  Simplification: no two of
its values are the same object, so that the `memo` of `deepcopy` plays no role. -/
def deepcopy (h : Heap V S K) (r : Ref) : Option (Heap V S K × Ref) :=
  (readCpds h r).map (newCpds h)

/-- The list at an address. -/
def getLabels (h : Heap V S K) (r : Ref) : Option (List S) :=
  match h[r]? with
  | some (.labels l) => some l
  | _ => none

/-- The references in the dict of domains at an address. -/
def getDomains (h : Heap V S K) (r : Ref) : Option (List (V × Ref)) :=
  match h[r]? with
  | some (.domains l) => some l
  | _ => none

/-- The current contents of `_domains`. -/
def readDomains (h : Heap V S K) (r : Ref) : Option (List (V × List S)) :=
  (getDomains h r).bind (readEach (getLabels h))

/-- The states of a variable. -/
def domainOf [DecidableEq V] (h : Heap V S K) (r : Ref) (v : V) : List S :=
  match readDomains h r with
  | some l => (l.lookup v).getD []
  | none => []

/-- `_generate_domains_bn`: `inference/inference.py:235-239`. -/
def newDomains (h : Heap V S K) (bn : List (V × Frame V S K)) : Heap V S K × Ref :=
  let (h₁, l) := allocEach (fun h (f : Frame V S K) => alloc h (.labels f.index)) h bn
  alloc h₁ (.domains l)

/-- The columns of a table: all combinations of the states of the parents.
`network/network.py:251-256`. -/
def combos (dom : V → List S) : List V → List (List S)
  | [] => [[]]
  | v :: vs => (dom v).flatMap fun s => (combos dom vs).map (s :: ·)

variable [LinearOrder V] [DecidableEq S]

/-- The dict comprehension of `_create_cpds_dict_bn`: `inference/inference.py:262-273`. -/
def nestedOf (bn : List (V × Frame V S K)) : Nested V S K :=
  bn.map fun q => (q.1, q.2.index.map fun s =>
    (s, (combos (domOf bn) q.2.parents).map fun ps => (q.2.parents.zip ps, q.2.p s ps)))

/-! ### The engine -/

/-- The body of a node function called with the states `xs`: `inference/inference.py:281-293`;
`none` is a `KeyError`. -/
def callFn (h : Heap V S K) (cpds : Ref) (args : List V) (xs : List S) : Option K := do
  let N ← readCpds h cpds
  let name ← args.head?
  let s ← xs.head?
  let st ← N.lookup name
  let cs ← st.lookup s
  cs.lookup (args.tail.zip xs.tail)

/-- The names of the arguments of each node function: the node, then the names in the first key of the
dict of its first state.  `inference/inference.py:321-340`; `list(…)[0]` raises an `IndexError` if there is none. -/
def fnArgs (N : Nested V S K) : Except Err (List (V × List V)) :=
  N.mapM fun q =>
    match q.2 with
    | [] => .error .indexError
    | st :: _ =>
      match st.2 with
      | [] => .error .indexError
      | c :: _ => .ok (q.1, q.1 :: c.1.map Prod.fst)

/-- `_generate_bbn`: `inference/inference.py:227-233`, with `build_bbn` (`ebaybbn/bbn.py:722-769`),
which looks at the functions only to find the names of their arguments. -/
def HEngine.generate [Zero K] (h : Heap V S K) (e : HEngine V) : HEngine V × Except Err Unit :=
  match readCpds h e.cpds with
  | none => (e, .error .attributeError)
  | some N =>
    match fnArgs N with
    | .error err => (e, .error err)
    | .ok fns =>
      match getOriginalFactors (fns.map fun f => (⟨f.2, fun _ => 0⟩ : Factor V S K)) with
      | .error err => ({ e with fns := fns }, .error err)
      | .ok nodes => ({ e with fns := fns, bbn := nodes.map fun n => (n.var, n.args) }, .ok ())

/-- `InferenceEngine.__init__`: `inference/inference.py:91-124`. -/
def HEngine.create [Zero K] (okName : V → Bool) (h : Heap V S K) (bn : List (V × Frame V S K)) :
    Heap V S K × Except Err (HEngine V) :=
  if bn.any (fun q => !okName q.1) then (h, .error .valueError)
  else if bn.isEmpty then (h, .error .valueError)
  else
    let (h₁, c) := newCpds h (nestedOf bn)
    match deepcopy h₁ c with
    | none => (h₁, .error .attributeError)
    | some (h₂, o) =>
      let (h₃, d) := newDomains h₂ bn
      match HEngine.generate h₃ ⟨c, o, d, [], []⟩ with
      | (e, .ok ()) => (h₃, .ok e)
      | (_, .error err) => (h₃, .error err)

/-- `self._cpds[v] = <reference>`, in place. -/
def setItem (h : Heap V S K) (cpds : Ref) (v : V) (r : Ref) : Heap V S K :=
  match getCpds h cpds with
  | none => h
  | some l =>
    if v ∈ l.map Prod.fst then h.set cpds (.cpds (l.map fun q => if q.1 = v then (v, r) else q))
    else h.set cpds (.cpds (l ++ [(v, r)]))

variable [Field K] [LinearOrder K]

/-- `_do`: `inference/inference.py:151-179`. -/
def HEngine.do_ (h : Heap V S K) (e : HEngine V) (v : V) (d : List (S × K)) :
    Heap V S K × Except Err Unit :=
  if (d.map Prod.snd).sum ≠ 1 then (h, .error .valueError)
  else if (∃ q ∈ d, 1 < q.2) ∨ ∃ q ∈ d, q.2 < 0 then (h, .error .valueError)
  else
    match (getCpds h e.orig).bind (·.lookup v) with
    | none => (h, .error .keyError)
    | some o =>
      match getStates h o with
      | none => (h, .error .attributeError)
      | some st =>
        if (d.map Prod.fst).toFinset ≠ (st.map Prod.fst).toFinset then (h, .error .valueError)
        else
          let (h₁, r) := newStates h (d.map fun q => (q.1, [([], q.2)]))
          (setItem h₁ e.cpds v r, .ok ())

/-- The `state` argument of `do_intervention`: a label or a dict. -/
inductive HArg (S K : Type)
  | label (isInt : Bool) (s : S)
  | dict (l : List (S × K))

/-- `do_intervention`: `inference/inference.py:181-214`.  A dict is given by its contents at the time of the call: it
is not kept. -/
def HEngine.doIntervention (h : Heap V S K) (e : HEngine V) (v : V) (a : HArg S K) :
    Heap V S K × HEngine V × Except Err Unit :=
  if !(e.fns.any fun f => decide (v ∈ f.2.tail)) then (h, e, .error .valueError)
  else
    let d : Except Err (List (S × K)) :=
      match a with
      | .dict d => .ok d
      | .label true s =>
        match ((getCpds h e.cpds).bind (·.lookup v)).bind (getStates h) with
        | none => .error .keyError
        | some st => .ok (st.map fun q => (q.1, if q.1 = s then 1 else 0))
      | .label false _ => .error .attributeError
    match d with
    | .error err => (h, e, .error err)
    | .ok d =>
      match HEngine.do_ h e v d with
      | (h₁, .error err) => (h₁, e, .error err)
      | (h₁, .ok ()) =>
        let (e', r) := HEngine.generate h₁ e
        (h₁, e', r)

/-- `reset_do`: `inference/inference.py:216-225`. -/
def HEngine.resetDo (h : Heap V S K) (e : HEngine V) (v : V) : Heap V S K × HEngine V × Except Err Unit :=
  match (getCpds h e.orig).bind (·.lookup v) with
  | none => (h, e, .error .keyError)
  | some o =>
    let h₁ := setItem h e.cpds v o
    let (e', r) := HEngine.generate h₁ e
    (h₁, e', r)

/-- The nodes of `_bbn`; their functions read the heap. -/
def HEngine.nodes (h : Heap V S K) (e : HEngine V) : List (Node V S K) :=
  e.bbn.map fun q => ⟨⟨q.2, fun xs => (callFn h e.cpds q.2 xs).getD 0⟩, q.1⟩

/-- The contents of the answer of `query`: `inference/inference.py:126-149`.  Simplifications: a node function without an
entry for some states of its arguments raises a `KeyError` at once, not when its table is built; the join tree, its
tables and the marginals are created by each query and not kept, and are values here; the attribute
`clique` that a query sets on the nodes of `_bbn` (`ebaybbn/bbn.py:244`) is never read and left out. -/
def HEngine.ask (nd : Nondet V) (h : Heap V S K) (e : HEngine V) (ev : List (V × S)) :
    Except Err (List (V × List (S × K))) :=
  if e.bbn.any (fun q => (combos (domainOf h e.doms) q.2).any fun xs => (callFn h e.cpds q.2 xs).isNone) then
    .error .keyError
  else do
    let res ← Verif.BBN.query nd (domainOf h e.doms) (e.nodes h) ev
    return ((getCpds h e.cpds).getD []).map fun q =>
      (q.1, (res.filter (·.1.1 = q.1)).map fun m => (m.1.2, m.2))

/-! ### Histories -/

/-- What the caller can do.  Networks, engines and dictionaries are numbered in the order of their creation. -/
inductive Call (V S K : Type)
  /-- create a fitted network -/
  | newNet (bn : List (V × Frame V S K))
  /-- fit a network again, or write into a frame obtained from it -/
  | setNet (i : ℕ) (bn : List (V × Frame V S K))
  /-- create a dictionary -/
  | newData (d : Data V S K)
  /-- change a dictionary: one that was created, passed to an engine, or returned by one -/
  | setData (j : ℕ) (d : Data V S K)
  /-- look at a dictionary -/
  | getData (j : ℕ)
  /-- `InferenceEngine(bn)` -/
  | create (i : ℕ)
  /-- `query(observations)`; the dictionaries of the answer get the next numbers -/
  | query (k : ℕ) (j : ℕ)
  /-- `do_intervention(node, state)` with a label -/
  | doLabel (k : ℕ) (v : V) (isInt : Bool) (s : S)
  /-- `do_intervention(node, state)` with a dictionary -/
  | doDict (k : ℕ) (v : V) (j : ℕ)
  /-- `reset_do(observation)` -/
  | reset (k : ℕ) (v : V)

/-- What the caller sees.  `nothing`: there is no object with that number, or of that kind. -/
inductive Out (V S K : Type)
  | nothing
  | done
  | raised (e : Err)
  | data (d : Data V S K)
  /-- an answer: for each node the number of a dictionary -/
  | answer (l : List (V × ℕ))
  deriving DecidableEq

/-- The outcome of a call without a value. -/
def Out.of : Except Err Unit → Out V S K
  | .ok () => .done
  | .error e => .raised e

/-- The contents of a dictionary of the caller. -/
def World.data (w : World V S K) (j : ℕ) : Option (Data V S K) :=
  match w.handles[j]? with
  | none => none
  | some r =>
    match w.heap[r]? with
    | some (.data d) => some d
    | _ => none

/-- The contents of a network. -/
def World.net (w : World V S K) (i : ℕ) : Option (List (V × Frame V S K)) :=
  match w.nets[i]? with
  | none => none
  | some r =>
    match w.heap[r]? with
    | some (.net bn) => some bn
    | _ => none

/-- What engine `k` answers to the observations `ev`. -/
def World.ask (nd : Nondet V) (w : World V S K) (k : ℕ) (ev : List (V × S)) :
    Option (Except Err (List (V × List (S × K)))) :=
  w.engines[k]?.map fun e => e.ask nd w.heap ev

/-- One call. -/
def World.step (nd : Nondet V) (okName : V → Bool) (w : World V S K) : Call V S K → World V S K × Out V S K
  | .newNet bn =>
    let (h, r) := alloc w.heap (.net bn)
    ({ w with heap := h, nets := w.nets ++ [r] }, .done)
  | .setNet i bn =>
    match w.nets[i]? with
    | none => (w, .nothing)
    | some r => ({ w with heap := w.heap.set r (.net bn) }, .done)
  | .newData d =>
    let (h, r) := alloc w.heap (.data d)
    ({ w with heap := h, handles := w.handles ++ [r] }, .done)
  | .setData j d =>
    match w.handles[j]? with
    | none => (w, .nothing)
    | some r => ({ w with heap := w.heap.set r (.data d) }, .done)
  | .getData j =>
    match w.data j with
    | none => (w, .nothing)
    | some d => (w, .data d)
  | .create i =>
    match w.net i with
    | none => (w, .nothing)
    | some bn =>
      match HEngine.create okName w.heap bn with
      | (h, .error e) => ({ w with heap := h }, .raised e)
      | (h, .ok e) => ({ w with heap := h, engines := w.engines ++ [e] }, .done)
  | .query k j =>
    match w.engines[k]?, w.data j with
    | some e, some (.obs ev) =>
      match e.ask nd w.heap ev with
      | .error err => (w, .raised err)
      | .ok out =>
        let (h, rs) := allocEach (fun h l => alloc h (.data (.dist l))) w.heap out
        ({ w with heap := h, handles := w.handles ++ rs.map Prod.snd },
          .answer ((out.map Prod.fst).zip (List.range' w.handles.length out.length)))
    | _, _ => (w, .nothing)
  | .doLabel k v isInt s =>
    match w.engines[k]? with
    | none => (w, .nothing)
    | some e =>
      let (h, e', r) := e.doIntervention w.heap v (.label isInt s)
      ({ w with heap := h, engines := w.engines.set k e' }, .of r)
  | .doDict k v j =>
    match w.engines[k]?, w.data j with
    | some e, some (.dist d) =>
      let (h, e', r) := e.doIntervention w.heap v (.dict d)
      ({ w with heap := h, engines := w.engines.set k e' }, .of r)
    | _, _ => (w, .nothing)
  | .reset k v =>
    match w.engines[k]? with
    | none => (w, .nothing)
    | some e =>
      let (h, e', r) := e.resetDo w.heap v
      ({ w with heap := h, engines := w.engines.set k e' }, .of r)

/-- A history of calls, from nothing; the outputs in order. -/
def World.run (nd : Nondet V) (okName : V → Bool) : World V S K → List (Call V S K) → World V S K × List (Out V S K)
  | w, [] => (w, [])
  | w, c :: cs =>
    let (w₁, o) := w.step nd okName c
    let (w₂, os) := World.run nd okName w₁ cs
    (w₂, o :: os)

end

end Verif.BBN
