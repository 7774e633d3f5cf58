import Mathlib.Algebra.Order.Field.Basic
import Mathlib.Algebra.Order.Monoid.WithTop
import Mathlib.Algebra.Order.AbsoluteValue.Basic
import Mathlib.Data.List.GetD

/-!
# Model of `causalnex.structure.notears`

`K` are the numbers (exact arithmetic).  The value `⊤` of `WithTop K` is `np.inf`; `NaN` does not occur
(simplification).  The objective function, its gradient and the acyclicity score are given by a
`Problem`; the concrete ones are in `Verif.Notears.Objective`.  scipy's optimiser is a parameter: an
arbitrary function (of the objective, the gradient, the starting point and the bounds, and of the number
of the call, so that it need not be deterministic).  Log messages are not modelled.
-/

namespace Verif.Notears

/-- Exceptions.  `outOfFuel` means: not yet finished within the number of steps given to the model. -/
inductive Err
  | valueError | keyError | outOfFuel
  deriving DecidableEq, Repr

/-- A two-dimensional array of numbers; `none` is `NaN` or an infinity. -/
structure Data (K : Type) where
  rows : ℕ
  cols : ℕ
  entry : ℕ → ℕ → Option K

/-- Lower and upper bound of a coordinate, `none` is no bound. -/
abbrev Bound (K : Type) := Option K × Option K

/-- What is optimised: objective and gradient for given `rho`, `alpha`, and the acyclicity score. -/
structure Problem (K : Type) where
  func : K → WithTop K → List K → WithTop K
  grad : K → WithTop K → List K → List K
  score : List K → WithTop K

/-- `sopt.minimize(func, start, jac=grad, bounds=bounds).x` (external); the first argument counts the
calls. -/
abbrev Minimizer (K : Type) :=
  ℕ → (List K → WithTop K) → (List K → List K) → List K → List (Bound K) → List K

/-- The local variables of the learning loop.  `calls` counts the calls of the optimiser and `warned`
tells whether the warning about convergence was given; both only observe. -/
structure St (K : Type) where
  wEst : List K
  wNew : List K
  rho : K
  alpha : WithTop K
  h : WithTop K
  hNew : WithTop K
  calls : ℕ
  warned : Bool

section
variable {K : Type} [Field K] [LinearOrder K]

/-- `0.25 * h`, where `0.25 * inf = inf`. -/
def quarter (h : WithTop K) : WithTop K := h.map (· / 4)

/-- `rho * h` for `rho > 0`, where `rho * inf = inf`. -/
def scale (rho : K) (h : WithTop K) : WithTop K := h.map (rho * ·)

/-- `while (rho < 1e20) and (h_new > 0.25 * h or h_new == np.inf): ...`, at most `fuel` times:
`structure/notears.py:428-433`, `536-543`, `structure/dynotears.py:477-483`. -/
def inner (P : Problem K) (minimize : Minimizer K) (bnds : List (Bound K)) : ℕ → St K → Option (St K)
  | 0, s => if s.rho < 10 ^ 20 ∧ (quarter s.h < s.hNew ∨ s.hNew = ⊤) then none else some s
  | fuel + 1, s =>
    if s.rho < 10 ^ 20 ∧ (quarter s.h < s.hNew ∨ s.hNew = ⊤) then
      let wNew := minimize s.calls (P.func s.rho s.alpha) (P.grad s.rho s.alpha) s.wEst bnds
      let hNew := P.score wNew
      let rho := if quarter s.h < hNew then s.rho * 10 else s.rho
      inner P minimize bnds fuel { s with wNew := wNew, hNew := hNew, rho := rho, calls := s.calls + 1 }
    else some s

/-- `for n_iter in range(max_iter): ...` with `k` iterations left: `structure/notears.py:427-440`,
`535-550`, `structure/dynotears.py:476-491`. -/
def outer (P : Problem K) (minimize : Minimizer K) (bnds : List (Bound K)) (hTol : K) (fuel : ℕ) :
    ℕ → St K → Option (St K)
  | 0, s => some s
  | k + 1, s =>
    match inner P minimize bnds fuel s with
    | none => none
    | some s =>
      let s := { s with wEst := s.wNew, h := s.hNew, alpha := s.alpha + scale s.rho s.hNew }
      if s.h ≤ (hTol : WithTop K) then some s
      else outer P minimize bnds hTol fuel k { s with warned := k = 0 }

/-- The initial values, for a vector of `n` weights: `structure/notears.py:420-424`, `533-534`,
`structure/dynotears.py:471-474`. -/
def initSt (n : ℕ) : St K :=
  { wEst := List.replicate n 0, wNew := List.replicate n 0, rho := 1, alpha := 0, h := ⊤, hNew := ⊤,
    calls := 0, warned := false }

/-- The whole loop. -/
def learnLoop (P : Problem K) (minimize : Minimizer K) (bnds : List (Bound K)) (n maxIter : ℕ)
    (hTol : K) (fuel : ℕ) : Option (St K) :=
  outer P minimize bnds hTol fuel maxIter (initSt n)

/-! ### Graphs -/

/-- An edge of a `StructureModel` with its attributes. -/
structure Edge (N K : Type) where
  src : N
  dst : N
  weight : K
  origin : String
  deriving DecidableEq, Repr

/-- A `StructureModel` whose edges have exactly the attributes `weight` and `origin`. -/
structure Graph (N K : Type) where
  nodes : List N
  edges : List (Edge N K)
  deriving DecidableEq, Repr

/-- `w.reshape([d, d])`, as a function of the two indices (numpy, row-major). -/
def reshape (d : ℕ) (w : List K) (i j : ℕ) : K := w.getD (i * d + j) 0

/-- `[... for i in range(d) for j in range(d)]`. -/
def cells (d : ℕ) : List (ℕ × ℕ) := (List.range d).flatMap fun i => (List.range d).map fun j => (i, j)

/-- `StructureModel(W)` for a `d × d` array: nodes `0..d-1` and an edge for every nonzero entry (networkx,
external), origin "unknown": `structure/structuremodel.py:102-105`. -/
def ofMatrix (d : ℕ) (W : ℕ → ℕ → K) : Graph ℕ K :=
  { nodes := List.range d
    edges := (cells d).filterMap fun c =>
      if W c.1 c.2 ≠ 0 then some ⟨c.1, c.2, W c.1 c.2, "unknown"⟩ else none }

/-- `add_nodes_from` (networkx, external). -/
def addNodes {N : Type} [DecidableEq N] (g : Graph N K) (ns : List N) : Graph N K :=
  ns.foldl (fun g n => if n ∈ g.nodes then g else { g with nodes := g.nodes ++ [n] }) g

/-- `add_weighted_edges_from` for one edge: `structure/structuremodel.py:196-231`. -/
def addEdge {N : Type} [DecidableEq N] (origin : String) (g : Graph N K) (e : N × N × K) : Graph N K :=
  let g := addNodes g [e.1, e.2.1]
  if g.edges.any fun x => x.src = e.1 ∧ x.dst = e.2.1 then
    { g with edges := g.edges.map fun x =>
        if x.src = e.1 ∧ x.dst = e.2.1 then ⟨e.1, e.2.1, e.2.2, origin⟩ else x }
  else { g with edges := g.edges ++ [⟨e.1, e.2.1, e.2.2, origin⟩] }

/-- `add_weighted_edges_from`. -/
def addWeightedEdges {N : Type} [DecidableEq N] (origin : String) (g : Graph N K)
    (es : List (N × N × K)) : Graph N K :=
  es.foldl (addEdge origin) g

/-! ### Learning from arrays -/

/-- The optional arguments forbidding edges. -/
structure Tabu (N : Type) where
  edges : Option (List (N × N)) := none
  parents : Option (List N) := none
  children : Option (List N) := none

/-- One bound: `structure/notears.py:107-119`, `169-181`; `free` is `(None, None)` or `(0, None)`. -/
def bound (tabu : Tabu ℕ) (free : Bound K) (c : ℕ × ℕ) : Bound K :=
  if c.1 = c.2 then (some 0, some 0)
  else if tabu.edges.any fun te => (c.1, c.2) ∈ te then (some 0, some 0)
  else if tabu.parents.any fun tp => c.1 ∈ tp then (some 0, some 0)
  else if tabu.children.any fun tc => c.2 ∈ tc then (some 0, some 0)
  else free

/-- `_assert_all_finite`: `structure/notears.py:557-583`. -/
def Data.finite (X : Data K) : Bool :=
  (List.range X.rows).all fun i => (List.range X.cols).all fun j => (X.entry i j).isSome

/-- The arguments besides the data. -/
structure Params (K N : Type) where
  maxIter : ℕ
  hTol : K
  wThreshold : K
  tabu : Tabu N

/-- `w_est[np.abs(w_est) <= w_threshold] = 0`: `structure/notears.py:442`. -/
def cutPlain (thr : K) (x : K) : K := if |x| ≤ thr then 0 else x

/-- `w_new[np.abs(w_new) < w_threshold] = 0`: `structure/notears.py:553`. -/
def cutStrict (thr : K) (x : K) : K := if |x| < thr then 0 else x

/-- `_learn_structure`: `structure/notears.py:356-443`. -/
def learnStructure (P : Problem K) (minimize : Minimizer K) (fuel : ℕ) (X : Data K)
    (bnds : List (Bound K)) (maxIter : ℕ) (hTol wThreshold : K) : Except Err (Graph ℕ K) :=
  if X.rows * X.cols = 0 then .error .valueError
  else
    match learnLoop P minimize bnds (X.cols * X.cols) maxIter hTol fuel with
    | none => .error .outOfFuel
    | some s => .ok (ofMatrix X.cols (reshape X.cols (s.wEst.map (cutPlain wThreshold))))

/-- `from_numpy`: `structure/notears.py:57-121`. -/
def fromNumpy (P : Problem K) (minimize : Minimizer K) (fuel : ℕ) (X : Data K) (a : Params K ℕ) :
    Except Err (Graph ℕ K) :=
  if !X.finite then .error .valueError
  else
    learnStructure P minimize fuel X ((cells X.cols).map (bound a.tabu (none, none))) a.maxIter a.hTol
      a.wThreshold

/-- The matrix of a split vector, `w[: d ** 2].reshape([d, d]) - w[d ** 2 :].reshape([d, d])`:
`structure/notears.py:552`. -/
def splitMatrix (d : ℕ) (w : List K) (i j : ℕ) : K :=
  reshape d (w.take (d ^ 2)) i j - reshape d (w.drop (d ^ 2)) i j

/-- `_learn_structure_lasso`: `structure/notears.py:446-554`. -/
def learnStructureLasso (P : Problem K) (minimize : Minimizer K) (fuel : ℕ) (X : Data K)
    (bnds : List (Bound K)) (maxIter : ℕ) (hTol wThreshold : K) : Except Err (Graph ℕ K) :=
  if X.rows * X.cols = 0 then .error .valueError
  else
    match learnLoop P minimize bnds (2 * X.cols * X.cols) maxIter hTol fuel with
    | none => .error .outOfFuel
    | some s => .ok (ofMatrix X.cols fun i j => cutStrict wThreshold (splitMatrix X.cols s.wEst i j))

/-- `from_numpy_lasso`: `structure/notears.py:124-183`. -/
def fromNumpyLasso (P : Problem K) (minimize : Minimizer K) (fuel : ℕ) (X : Data K) (a : Params K ℕ) :
    Except Err (Graph ℕ K) :=
  if !X.finite then .error .valueError
  else
    let b := (cells X.cols).map (bound a.tabu (some 0, none))
    learnStructureLasso P minimize fuel X (b ++ b) a.maxIter a.hTol a.wThreshold

/-- Whether `from_numpy` gives the warning about convergence: `structure/notears.py:439-440`. -/
def fromNumpyWarns (P : Problem K) (minimize : Minimizer K) (fuel : ℕ) (X : Data K) (a : Params K ℕ) : Bool :=
  match learnLoop P minimize ((cells X.cols).map (bound a.tabu (none, none))) (X.cols * X.cols) a.maxIter
    a.hTol fuel with
  | none => false
  | some s => s.warned

/-- Whether `from_numpy_lasso` gives the warning about convergence: `structure/notears.py:549-550`. -/
def fromNumpyLassoWarns (P : Problem K) (minimize : Minimizer K) (fuel : ℕ) (X : Data K)
    (a : Params K ℕ) : Bool :=
  match learnLoop P minimize ((cells X.cols).map (bound a.tabu (some 0, none)) ++
    (cells X.cols).map (bound a.tabu (some 0, none))) (2 * X.cols * X.cols) a.maxIter a.hTol fuel with
  | none => false
  | some s => s.warned

/-! ### Learning from data frames -/

/-- A data frame: column names, for every column whether it is numeric, values (one column of the array
per column name). -/
structure DataFrame (C K : Type) where
  cols : List C
  numeric : List Bool
  rows : ℕ
  entry : ℕ → ℕ → Option K

/-- `data.values`. -/
def DataFrame.values {C : Type} (X : DataFrame C K) : Data K := ⟨X.rows, X.cols.length, X.entry⟩

/-- `col_idx[c]`, where `col_idx = {c: i for i, c in enumerate(data.columns)}` (the last index wins):
`structure/notears.py:243`, `325`. -/
def colIdx {C : Type} [DecidableEq C] (cols : List C) (c : C) : Option ℕ :=
  cols.zipIdx.foldl (fun acc x => if x.1 = c then some x.2 else acc) none

/-- `idx_col[i]`, where `idx_col = {i: c for c, i in col_idx.items()}`: `structure/notears.py:244`,
`326`. -/
def idxCol {C : Type} [DecidableEq C] (cols : List C) (i : ℕ) : Option C :=
  match cols[i]? with
  | none => none
  | some c => if colIdx cols c = some i then some c else none

/-- A dictionary access. -/
def get {α : Type} : Option α → Except Err α
  | none => .error .keyError
  | some a => .ok a

/-- The translation of the names of forbidden edges and nodes: `structure/notears.py:246-251`,
`328-333`. -/
def translate {C : Type} [DecidableEq C] (cols : List C) (t : Tabu C) : Except Err (Tabu ℕ) := do
  let edges ← match t.edges with
    | none => pure none
    | some te => do
      let l ← te.mapM fun e => do
        let u ← get (colIdx cols e.1)
        let v ← get (colIdx cols e.2)
        pure (u, v)
      pure (some l)
  let parents ← match t.parents with
    | none => pure none
    | some tp => do
      let l ← tp.mapM fun n => get (colIdx cols n)
      pure (some l)
  let children ← match t.children with
    | none => pure none
    | some tc => do
      let l ← tc.mapM fun n => get (colIdx cols n)
      pure (some l)
  pure { edges := edges, parents := parents, children := children }

/-- The graph with the names of the columns: `structure/notears.py:263-268`, `346-351`. -/
def rename {C : Type} [DecidableEq C] (cols : List C) (g : Graph ℕ K) : Except Err (Graph C K) := do
  let es ← g.edges.mapM fun e => do
    let u ← get (idxCol cols e.src)
    let v ← get (idxCol cols e.dst)
    pure (u, v, e.weight)
  pure (addWeightedEdges "learned" (addNodes ⟨[], []⟩ cols) es)

/-- `from_pandas` and `from_pandas_lasso`, which differ only in the function called:
`structure/notears.py:186-270`, `273-353`. -/
def fromPandasWith {C : Type} [DecidableEq C] (learn : Data K → Params K ℕ → Except Err (Graph ℕ K))
    (X : DataFrame C K) (a : Params K C) : Except Err (Graph C K) :=
  if X.numeric.any fun b => !b then .error .valueError
  else
    match translate X.cols a.tabu with
    | .error e => .error e
    | .ok tabu =>
      match learn X.values { a with tabu := tabu } with
      | .error e => .error e
      | .ok g => rename X.cols g

/-- `from_pandas`: `structure/notears.py:186-270`. -/
def fromPandas {C : Type} [DecidableEq C] (P : Problem K) (minimize : Minimizer K) (fuel : ℕ)
    (X : DataFrame C K) (a : Params K C) : Except Err (Graph C K) :=
  fromPandasWith (fromNumpy P minimize fuel) X a

/-- `from_pandas_lasso`: `structure/notears.py:273-353`. -/
def fromPandasLasso {C : Type} [DecidableEq C] (P : Problem K) (minimize : Minimizer K) (fuel : ℕ)
    (X : DataFrame C K) (a : Params K C) : Except Err (Graph C K) :=
  fromPandasWith (fromNumpyLasso P minimize fuel) X a

end

end Verif.Notears
