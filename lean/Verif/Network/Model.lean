import Verif.Graph.Basic
import Mathlib.Order.Lattice
import Mathlib.Algebra.Field.Basic
import Mathlib.Data.List.Sort
import Mathlib.Data.List.ProdSigma

/-!
# Model of `causalnex.network.BayesianNetwork`

`V` are column (node) names, `S` are Python values that can be states of a node, `K` the numbers.
A cell of a data frame is an `Option S`; `none` is a null (`None`, `NaN`).
States are linearly ordered: `sorted` of incomparable states raises `TypeError` and is not modelled.
pgmpy (estimators, `BayesianModel`) is external; the parts used are modelled from its documented
behaviour (version 0.1.12).
-/

namespace Verif.Network

/-- Exceptions. -/
inductive Err
  | disconnected | cyclic | keyError | valueError | attributeError | typeError | networkXError | reError
  deriving DecidableEq, Repr

/-- A data frame.  Cells of a row outside `cols` are meaningless.  Simplification: the row index is
the position. -/
structure DF (V S : Type) where
  cols : List V
  rows : List (V → Option S)

/-- A CPD of the pgmpy model: `cpd.variables[1:]` and `cpd.values.ravel()` (row-major).
pgmpy `TabularCPD` (external). -/
structure PCpd (V K : Type) where
  parents : List V
  values : List K

/-- The state of a `BayesianNetwork`: `self._model.nodes`, `self._model.edges`, `self._node_states`
and `self._model.cpds`. -/
structure Net (V S K : Type) where
  nodes : List V
  edges : List (V × V)
  states : Option (List (V × List (S × ℕ)))
  cpds : List (V × PCpd V K)

/-- A frame returned by the `cpds` property: row labels, names and labels of the columns, entries.
For a node without parents the only column is labelled `""`, here `[]`. -/
structure Table (V S K : Type) where
  index : List S
  parents : List V
  cols : List (List S)
  rows : List (List K)

section
variable {V S K : Type} [LinearOrder V] [LinearOrder S]

/-! ### Construction -/

/-- `BayesianModel.add_edges_from` on an empty model: nodes in order of appearance.
`network/network.py:151-152`. -/
def nodesOfEdges (E : List (V × V)) : List V :=
  E.foldl (fun acc e =>
    let acc := if e.1 ∈ acc then acc else acc ++ [e.1]
    if e.2 ∈ acc then acc else acc ++ [e.2]) []

/-- `BayesianNetwork.__init__`: `network/network.py:111-152`.  `ns`, `E` are the nodes and edges of
the structure. -/
def init (ns : List V) (E : List (V × V)) : Except Err (Net V S K) :=
  if 1 < (Graph.weakComponents ns E).length then .error .disconnected
  else if !Graph.isDag ns E then .error .cyclic
  else .ok ⟨nodesOfEdges E, E, none, []⟩

/-! ### Node states -/

/-- `{v: k for k, v in enumerate(l)}`, starting at `k`: a later entry for an equal key overwrites
the value of the earlier one, in the place of the earlier one. -/
def enumDict : ℕ → List S → List (S × ℕ) → List (S × ℕ)
  | _, [], d => d
  | k, v :: l, d =>
    enumDict (k + 1) l
      (if v ∈ d.map Prod.fst then d.map fun q => if q.1 = v then (v, k) else q else d ++ [(v, k)])

/-- The encoding of one node: `network/network.py:209-211`. -/
def encoding (states : List S) : List (S × ℕ) := enumDict 0 (states.insertionSort (· ≤ ·)) []

/-- `node_states.setter`: `network/network.py:184-211`. -/
def setNodeStates (net : Net V S K) (nodes : List (V × List (Option S))) :
    Net V S K × Except Err Unit :=
  if net.nodes.any (fun v => v ∉ nodes.map Prod.fst) then (net, .error .keyError)
  else if nodes.any (fun q => q.2.any Option.isNone) then (net, .error .valueError)
  else ({ net with states := some (nodes.map fun q => (q.1, encoding (q.2.filterMap id))) }, .ok ())

/-- `fit_node_states`: `network/network.py:271-288`.  `uniq` is the order in which
`set(df[c].unique())` lists the distinct values of a column. -/
def fitNodeStates (uniq : List (Option S) → List (Option S)) (net : Net V S K) (df : DF V S) :
    Net V S K × Except Err Unit :=
  setNodeStates net (df.cols.map fun c => (c, uniq (df.rows.map fun r => r c)))

/-! ### Encoding of data -/

/-- The frames of the program; frames are passed around by reference, an index into the heap. -/
abbrev Heap (V S : Type) := List (DF V S)

/-- `df[col] = df.apply(g, axis=1)`: the new column is computed from all rows, then stored in the
frame (pandas, external).  Simplification: what `apply` returns for a frame without rows depends on the
pandas version and is not modelled. -/
def assignCol (h : Heap V S) (ref : ℕ) (col : V) (g : (V → Option S) → Except Err (Option S)) :
    Heap V S × Except Err Unit :=
  match h[ref]? with
  | none => (h, .error .keyError)
  | some df =>
    match df.rows.mapM fun r => do return Function.update r col (← g r) with
    | .error err => (h, .error err)
    | .ok rows =>
      (h.set ref ⟨if col ∈ df.cols then df.cols else df.cols ++ [col], rows⟩, .ok ())

/-- `Series.map(dict)` on one cell: values that are not keys become `NaN` (pandas, external).
`int i` is the number `i` as a Python value. -/
def mapCell (int : ℕ → S) (d : List (S × ℕ)) : Option S → Option S
  | none => none
  | some s => (d.lookup s).map int

/-- `_state_to_index` for the columns `cols`; the frame is modified.
`network/network.py:290-312`. -/
def stateToIndex (int : ℕ → S) (states : List (V × List (S × ℕ))) :
    Heap V S → ℕ → List V → Heap V S × Except Err Unit
  | h, _, [] => (h, .ok ())
  | h, ref, c :: cs =>
    match states.lookup c with
    | none => (h, .error .keyError)
    | some d =>
      match assignCol h ref c fun r => .ok (mapCell int d (r c)) with
      | (h, .error err) => (h, .error err)
      | (h, .ok ()) => stateToIndex int states h ref cs

/-! ### Estimation (pgmpy, external) -/

/-- All tuples of the given lists, the last component varying fastest
(`pd.MultiIndex.from_product`, external). -/
def product {α : Type} : List (List α) → List (List α)
  | [] => [[]]
  | l :: ls => l.flatMap fun a => (product ls).map fun t => a :: t

/-- Rows without missing values (`data.dropna()`, pgmpy `complete_samples_only=True`). -/
def completeRows (df : DF V S) : List (V → Option S) :=
  df.rows.filter fun r => df.cols.all fun c => (r c).isSome

/-- Number of rows with the given values of `node` and of its parents (`state_counts`, pgmpy). -/
def countRows (rows : List (V → Option S)) (node : V) (parents : List V) (i : S) (js : List S) : ℕ :=
  (rows.filter fun r => r node = some i ∧ parents.map r = js.map some).length

/-- The parents of a node, sorted (pgmpy estimators; `network/network.py:447,525`). -/
def sortedParents (edges : List (V × V)) (node : V) : List V :=
  ((edges.filter fun e => e.2 = node).map Prod.fst).insertionSort (· ≤ ·)

variable [Zero K] [One K] [Add K] [Div K] [NatCast K]

/-- The arguments `method`, `bayes_prior` and `equivalent_sample_size` of `fit_cpds`. -/
structure FitArgs (K : Type) where
  method : String := "MaximumLikelihoodEstimator"
  prior : Option String := none
  ess : Option K := none

/-- What the estimators do to the counts (pgmpy, external): maximum likelihood replaces columns
of zeros by ones, the Bayesian estimator adds a pseudo count. -/
inductive Pseudo (K : Type)
  | fillEmpty
  | add (a : K)

/-- One column of weights (pgmpy `estimate_cpd`, external). -/
def weights (ps : Pseudo K) (counts : List ℕ) : List K :=
  match ps with
  | .fillEmpty => if counts.all (· = 0) then counts.map fun _ : ℕ => 1 else counts.map fun n : ℕ => (n : K)
  | .add a => counts.map fun n : ℕ => (n : K) + a

/-- Normalised column (`TabularCPD.normalize`, pgmpy, external). -/
def normaliseCol (l : List K) : List K := l.map fun x => x / l.sum

/-- `estimate_cpd` (pgmpy, external): `names` are the `state_names` given to the estimator. -/
def estimateCpd (ps : V → List V → Pseudo K) (names : V → List S) (edges : List (V × V))
    (rows : List (V → Option S)) (node : V) : PCpd V K :=
  let parents := sortedParents edges node
  let table := (product (parents.map names)).map fun js => normaliseCol
    (weights (ps node parents) ((names node).map fun i => countRows rows node parents i js))
  ⟨parents, (List.range (names node).length).flatMap fun i => table.map fun col => col.getD i 0⟩

/-- `BayesianModel.add_cpds`: a CPD of the same variable is replaced (pgmpy, external). -/
def addCpd (cpds : List (V × PCpd V K)) (q : V × PCpd V K) : List (V × PCpd V K) :=
  if q.1 ∈ cpds.map Prod.fst then cpds.map fun c => if c.1 = q.1 then q else c else cpds ++ [q]

/-- `BayesianModel.fit` (pgmpy, external): all CPDs are estimated, then added. -/
def pgmFit (net : Net V S K) (ps : V → List V → Pseudo K) (names : V → List S)
    (data : DF V S) : Net V S K :=
  { net with cpds := (net.nodes.map fun v =>
      (v, estimateCpd ps names net.edges (completeRows data) v)).foldl addCpd net.cpds }

/-- `state_names`: `network/network.py:346`. -/
def stateNames (int : ℕ → S) (states : List (V × List (S × ℕ))) (v : V) : List S :=
  match states.lookup v with
  | some d => d.map fun q => int q.2
  | none => []

/-- The pseudo counts the arguments of `fit_cpds` ask for: `network/network.py:351-377` and
pgmpy's `BayesianEstimator.get_parameters` (external). -/
def pseudoOf (names : V → List S) (a : FitArgs K) : Except Err (V → List V → Pseudo K) :=
  if a.method = "MaximumLikelihoodEstimator" then .ok fun _ _ => .fillEmpty
  else if a.method = "BayesianEstimator" then
    if a.prior = some "K2" then .ok fun _ _ => .add 1
    else if a.prior = some "BDeu" then
      match a.ess with
      | none => .error .typeError
      | some n => .ok fun v ps =>
        .add (n / (((names v).length * (ps.map fun p => (names p).length).prod : ℕ) : K))
    else .error .valueError
  else .error .valueError

/-- `fit_cpds`: `network/network.py:314-379`.  The caller's frame is `h[ref]`; `copy` and the
selection of columns allocate new frames. -/
def fitCpds (int : ℕ → S) (net : Net V S K) (h : Heap V S) (ref : ℕ) (a : FitArgs K) :
    Net V S K × Heap V S × Except Err Unit :=
  match net.states, h[ref]? with
  | none, _ => (net, h, .error .attributeError)
  | some _, none => (net, h, .error .keyError)
  | some states, some df =>
    let names := stateNames int states
    let h := h ++ [df]
    if net.nodes.all (fun v => v ∈ df.cols) then
      let sel := h.length
      let h := h ++ [⟨net.nodes, df.rows⟩]
      match stateToIndex int states h sel net.nodes with
      | (h, .error err) => (net, h, .error err)
      | (h, .ok ()) =>
        match pseudoOf names a, h[sel]? with
        | .error err, _ => (net, h, .error err)
        | .ok _, none => (net, h, .error .keyError)
        | .ok ps, some data => (pgmFit net ps names data, h, .ok ())
    else (net, h, .error .keyError)

/-- `fit_node_states_and_cpds`: `network/network.py:381-410`. -/
def fitNodeStatesAndCpds (int : ℕ → S) (uniq : List (Option S) → List (Option S)) (net : Net V S K)
    (h : Heap V S) (ref : ℕ) (a : FitArgs K) : Net V S K × Heap V S × Except Err Unit :=
  match h[ref]? with
  | none => (net, h, .error .keyError)
  | some df =>
    match fitNodeStates uniq net df with
    | (net, .error err) => (net, h, .error err)
    | (net, .ok ()) => fitCpds int net h ref a

/-! ### The `cpds` property -/

/-- `values.reshape(r, c)` (numpy, external). -/
def reshape (values : List K) (r c : ℕ) : Except Err (List (List K)) :=
  if values.length = r * c then
    .ok ((List.range r).map fun i => (values.drop (i * c)).take c)
  else .error .valueError

/-- `sorted(self._node_states[var].keys())`: `network/network.py:252,263`. -/
def sortedStates (states : List (V × List (S × ℕ))) (v : V) : Except Err (List S) :=
  match states.lookup v with
  | some d => .ok ((d.map Prod.fst).insertionSort (· ≤ ·))
  | none => .error .keyError

/-- One entry of the `cpds` property: `network/network.py:249-267`. -/
def cpdTable (states : List (V × List (S × ℕ))) (q : V × PCpd V K) :
    Except Err (Table V S K) := do
  let iterables ← q.2.parents.mapM (sortedStates states)
  let cols := product iterables
  let index ← sortedStates states q.1
  let rows ← reshape q.2.values index.length (max 1 cols.length)
  return ⟨index, q.2.parents, cols, rows⟩

/-- `cpds`: `network/network.py:223-269`. -/
def cpds (net : Net V S K) : Except Err (List (V × Table V S K)) :=
  match net.states with
  | none => if net.cpds.isEmpty then .ok [] else .error .typeError
  | some states => net.cpds.mapM fun q => do return (q.1, ← cpdTable states q)

/-! ### Prediction with complete data -/

/-- `cpd[tuple]`: the column with a given label, as (row label, value) pairs (pandas, external).
A null is not a label. -/
def column (t : Table V S K) (ps : List (Option S)) : Except Err (List (S × K)) :=
  match (t.cols.map (·.map some)).idxOf? ps with
  | some j => .ok (t.index.zip (t.rows.map fun r => r.getD j 0))
  | none => .error .keyError

/-- The CPD of a node, `self.cpds[node]`: `network/network.py:448,526`. -/
def cpdOf (net : Net V S K) (node : V) : Except Err (Table V S K) := do
  match (← cpds net).lookup node with
  | some t => return t
  | none => .error .keyError

variable [LT K] [DecidableLT K]

/-- `Series.idxmax`: the label of the first maximal entry (pandas, external). -/
def idxmax : List (S × K) → Except Err S
  | [] => .error .valueError
  | q :: l => .ok (l.foldl (fun b q => if b.2 < q.2 then q else b) q).1

/-- `_predict_from_complete_data`: `network/network.py:429-458`.  `name` is `node + "_prediction"`.
The result is the frame consisting of the column `name`. -/
def predictComplete (name : V) (net : Net V S K) (h : Heap V S) (ref : ℕ) (node : V) :
    Heap V S × Except Err (DF V S) :=
  match h[ref]? with
  | none => (h, .error .keyError)
  | some df =>
    let new := h.length
    let h := h ++ [df]
    match cpdOf net node with
    | .error err => (h, .error err)
    | .ok t =>
      match assignCol h new name (fun r => do
          return some (← idxmax (← column t ((sortedParents net.edges node).map r)))) with
      | (h, .error err) => (h, .error err)
      | (h, .ok ()) => (h, match h[new]? with
        | some df => .ok ⟨[name], df.rows⟩
        | none => .error .keyError)

/-- `lookup_probability`: `network/network.py:528-532`.  `num` is a number as a Python value. -/
def lookupProbability (num : K → S) (t : Table V S K) (parents : List V) (st : S)
    (r : V → Option S) : Except Err (Option S) := do
  match (← column t (parents.map r)).lookup st with
  | some p => return some (num p)
  | none => .error .keyError

/-- The loop of `_predict_probability_from_complete_data`: `network/network.py:534-539`. -/
def probLoop (num : K → S) (fmt : V → S → V) (t : Table V S K) (parents : List V) (node : V) :
    Heap V S → ℕ → List S → Heap V S × Except Err Unit
  | h, _, [] => (h, .ok ())
  | h, ref, st :: sts =>
    match assignCol h ref (fmt node st) (lookupProbability num t parents st) with
    | (h, .error err) => (h, .error err)
    | (h, .ok ()) => probLoop num fmt t parents node h ref sts

/-- `_predict_probability_from_complete_data`: `network/network.py:507-543`.  `order` is the
iteration order of the set `self.node_states[node]`, `fmt n s` is `"{n}_{s}".format(n=n, s=s)`. -/
def predictProbComplete (num : K → S) (fmt : V → S → V) (order : List S) (net : Net V S K)
    (h : Heap V S) (ref : ℕ) (node : V) : Heap V S × Except Err (DF V S) :=
  match h[ref]? with
  | none => (h, .error .keyError)
  | some df =>
    let new := h.length
    let h := h ++ [df]
    match cpdOf net node with
    | .error err => (h, .error err)
    | .ok t =>
      match probLoop num fmt t (sortedParents net.edges node) node h new order with
      | (h, .error err) => (h, .error err)
      | (h, .ok ()) => (h, match h[new]? with
        | some df => .ok ⟨order.map (fmt node), df.rows⟩
        | none => .error .keyError)

/-! ### Prediction with incomplete data -/

/-- The frame `_predict_from_incomplete_data` and `_predict_probability_from_incomplete_data` give
to pgmpy: `network/network.py:478-484,562-566`. -/
def incompleteData (int : ℕ → S) (net : Net V S K) (h : Heap V S) (ref : ℕ) (node : V) :
    Heap V S × Except Err (DF V S) :=
  match h[ref]?, net.states with
  | none, _ => (h, .error .keyError)
  | some df, none => (h ++ [df], if df.cols.isEmpty then .error .keyError else .error .typeError)
  | some df, some states =>
    let new := h.length
    match stateToIndex int states (h ++ [df]) new df.cols with
    | (h, .error err) => (h, .error err)
    | (h, .ok ()) =>
      match h[new]? with
      | none => (h, .error .keyError)
      | some df =>
        if node ∈ df.cols then (h, .ok ⟨df.cols.filter (· ≠ node), df.rows⟩)
        else (h, .error .keyError)

/-- `_predict_from_incomplete_data`: `network/network.py:460-488`.  `oracle` is the column of the
node in `BayesianModel.predict` (pgmpy, external): the code of its most likely state for each row. -/
def predictIncomplete (oracle : DF V S → List ℕ) (int : ℕ → S) (name : V) (net : Net V S K)
    (h : Heap V S) (ref : ℕ) (node : V) : Heap V S × Except Err (DF V S) :=
  match incompleteData int net h ref node with
  | (h, .error err) => (h, .error err)
  | (h, .ok data) =>
    (h, .ok ⟨[name], (oracle data).map fun i => Function.update (fun _ => none) name (some (int i))⟩)

/-- `_predict_probability_from_incomplete_data`: `network/network.py:545-582`.  `oracle` is
`BayesianModel.predict_probability` (pgmpy, external), a frame with a column `{v}_{i}` for each
variable without data and each code `i` of it; `pattern n` is what compiling the pattern
`^{n}_[0-9]+$` gives: an error, or the test `pattern.match`. -/
def predictProbIncomplete (oracle : DF V S → DF V S) (pattern : V → Except Err (V → Bool))
    (int : ℕ → S) (net : Net V S K) (h : Heap V S) (ref : ℕ) (node : V) :
    Heap V S × Except Err (DF V S) :=
  match incompleteData int net h ref node with
  | (h, .error err) => (h, .error err)
  | (h, .ok data) =>
    match pattern node with
    | .error err => (h, .error err)
    | .ok isMatch => (h, .ok ⟨(oracle data).cols.filter isMatch, (oracle data).rows⟩)

/-- Do all parents of the node have a column? `network/network.py:424,502`. -/
def isComplete (net : Net V S K) (df : DF V S) (node : V) : Bool :=
  (sortedParents net.edges node).all fun p => p ∈ df.cols

/-- `predict`: `network/network.py:412-427`.  A node unknown to the model has no
`predecessors` (networkx, external). -/
def predict (oracle : DF V S → List ℕ) (int : ℕ → S) (predName : V → V) (net : Net V S K)
    (h : Heap V S) (ref : ℕ) (node : V) : Heap V S × Except Err (DF V S) :=
  match h[ref]? with
  | none => (h, .error .keyError)
  | some df =>
    if node ∉ net.nodes then (h, .error .networkXError)
    else if isComplete net df node then predictComplete (predName node) net h ref node
    else predictIncomplete oracle int (predName node) net h ref node

/-- `predict_probability`: `network/network.py:490-505`. -/
def predictProbability (oracle : DF V S → DF V S) (pattern : V → Except Err (V → Bool)) (int : ℕ → S)
    (num : K → S) (fmt : V → S → V) (order : List S) (net : Net V S K)
    (h : Heap V S) (ref : ℕ) (node : V) : Heap V S × Except Err (DF V S) :=
  match h[ref]? with
  | none => (h, .error .keyError)
  | some df =>
    if node ∉ net.nodes then (h, .error .networkXError)
    else if isComplete net df node then predictProbComplete num fmt order net h ref node
    else predictProbIncomplete oracle pattern int net h ref node

end

end Verif.Network
