import Verif.Pytorch.LossProps
import Verif.Notears.PropsPandas

/-!
# Model of `from_numpy` and `from_pandas` of the PyTorch version

The random initial parameters of the later layers and scipy's optimiser are parameters of the model. Data are finite rationals (`NaN` and
infinities, rejected by `check_array`, are not modelled).
-/

namespace Verif.Pytorch

open Verif.Str
open Verif.Notears (Tabu Minimizer ofMatrix colIdx translate)

/-- An edge with its attributes. -/
structure LEdge (N : Type) where
  src : N
  dst : N
  weight : ℝ
  meanEffect : ℝ
  origin : String

/-- The learned `StructureModel`: nodes, edges, the node attributes `bias` and `dist_type`, and the graph attributes
`graph_collapsed` and `structure_learner` (the shape, the types and the parameters of the network). `warned` tells whether the warning
was given and `rho` is the final penalty; both only observe. -/
structure Learned (N : Type) where
  nodes : List N
  edges : List (LEdge N)
  bias : N → Option ℝ
  distType : N → Option Enc
  collapsed : Notears.Graph N ℝ
  arch : Arch
  encs : List Enc
  params : List ℝ
  warned : Bool
  rho : ℝ

/-- The arguments besides the data; `clamp` is the keyword argument `nonlinear_clamp`. -/
structure Args (N : Type) where
  schema : Option (List (N × Alias)) := none
  lasso : ℝ := 0
  ridge : ℝ := 0
  useBias : Bool := false
  hidden : Option (List ℕ) := none
  wThreshold : Option ℝ := none
  maxIter : ℕ := 100
  tabu : Tabu N := {}
  clamp : ℝ := 1 / 100

/-- The initial parameters: zeros in the first layer, random numbers in the later ones: `structure/pytorch/core.py:104-122`. -/
noncomputable def initParams (a : Arch) (init : ℕ → ℝ) : List ℝ :=
  (List.range a.sizes.sum).map fun k =>
    if k < a.d * a.m1 * a.d + (if a.useBias then a.d * a.m1 else 0) then 0 else init k

/-- `remove_edges_below_threshold` if a threshold other than zero is given: `structure/pytorch/notears.py:190-191`,
`structure/structuremodel.py:243-253`. -/
noncomputable def cutEdges (thr : Option ℝ) (es : List (Notears.Edge ℕ ℝ)) : List (Notears.Edge ℕ ℝ) :=
  match thr with
  | none => es
  | some t => if t ≠ 0 then es.filter fun e => ¬ |e.weight| < t else es

/-- `add_to_node` of all types: `structure/pytorch/notears.py:213-214`, `dist_type/_base.py:137-148`,
`dist_type/categorical.py:209-222`. -/
def attachTypes (es : List Enc) : ℕ → Option Enc :=
  es.foldl (fun f e k => if k ∈ e.cols then some e else f k) fun _ => none

/-- The result of `from_numpy` for the network with the parameters `w`: `structure/pytorch/notears.py:189-225`. -/
noncomputable def buildGraph (dOrig : ℕ) (a : Arch) (es : List Enc) (rows : List (ℕ → ℝ)) (thr : Option ℝ) (w : List ℝ) (warned : Bool)
    (rho : ℝ) :
    Learned ℕ :=
  let n := a.net w
  let adj := adjacency a n rows
  { nodes := List.range a.d
    edges := (cutEdges thr (ofMatrix a.d adj).edges).map fun e => ⟨e.src, e.dst, e.weight, meanEffect a n rows e.src e.dst, "learned"⟩
    bias := fun k => n.bias.map fun b => b.getD k 0
    distType := attachTypes es
    collapsed := ofMatrix dOrig (collapseAll es adj)
    arch := a
    encs := es
    params := w
    warned := warned
    rho := rho }

/-- The loss of an ordinal variable with a single class is an `IndexError`: `dist_type/ordinal.py:117`. -/
def lossRaises (es : List Enc) : Bool := es.any fun e => match e with
  | .ord _ _ counts => counts.length ≤ 1
  | _ => false

/-- The shape of the network: `structure/pytorch/notears.py:152-156`, `177-186`. -/
def archOf {N : Type} (x : Args N) (d : ℕ) : Arch := ⟨d, hiddenUnits x.hidden, x.useBias, x.clamp⟩

/-- `from_numpy`: `structure/pytorch/notears.py:49-225`. -/
noncomputable def fromNumpy (minimize : Minimizer ℝ) (init : ℕ → ℝ) (fuel : ℕ) (X : Frame) (x : Args ℕ) : Except Err (Learned ℕ) :=
  match prepareChecked X x.schema x.tabu with
  | .error e => .error e
  | .ok p =>
    let a := archOf x p.data.cols
    let rows := p.data.rows.map realRow
    if !a.valid then .error .zeroDivision
    else if x.maxIter ≠ 0 ∧ lossRaises p.encs then .error .indexError
    else
      match fit (torchProblem a p.encs rows x.lasso x.ridge) minimize (boundsOf a p.tabu) (initParams a init) x.maxIter fuel with
      | none => .error .outOfFuel
      | some s => .ok (buildGraph X.cols a p.encs rows x.wThreshold s.params s.warned s.rho)

/-! ### Data frames -/

/-- A data frame: names of the columns (taken to be different), which of them are numeric, rows. -/
structure Table where
  cols : List Str
  numeric : List Bool
  rows : List (List ℚ)

/-- `data.values`. -/
def Table.values (X : Table) : Frame := ⟨X.cols.length, X.rows⟩

/-- An error of the other model as one of this. -/
def liftErr : Notears.Err → Err
  | .valueError => .valueError
  | .keyError => .keyError
  | .outOfFuel => .outOfFuel

/-- `X.columns.get_loc(col)`: `structure/pytorch/notears.py:308`. -/
def locateCol (cols : List Str) (p : Str × Alias) : Except Err (ℕ × Alias) :=
  match colIdx cols p.1 with
  | none => .error .keyError
  | some i => .ok (i, p.2)

/-- `{X.columns.get_loc(col): alias ...}`: `structure/pytorch/notears.py:305-309`. -/
def locateSchema (cols : List Str) : Option (List (Str × Alias)) → Except Err (Option (List (ℕ × Alias)))
  | none => .ok none
  | some s => (s.mapM (locateCol cols)).map some

/-- One edge with names: `structure/pytorch/notears.py:359-366`. -/
def nameEdge (names : Names) (e : LEdge ℕ) : Except Err (LEdge Str) :=
  match names e.src, names e.dst with
  | some u, some v => .ok ⟨u, v, e.weight, e.meanEffect, "learned"⟩
  | _, _ => .error .keyError

/-- `sm.add_edge`: an edge that exists gets the new attributes: `structure/structuremodel.py:125-155`. -/
def addLEdge (es : List (LEdge Str)) (e : LEdge Str) : List (LEdge Str) :=
  if es.any fun x => x.src = e.src ∧ x.dst = e.dst then es.map fun x => if x.src = e.src ∧ x.dst = e.dst then e else x
  else es ++ [e]

/-- A node attribute by names: later nodes with the same name overwrite earlier ones. -/
def byName {α : Type} (d : ℕ) (names : Names) (f : ℕ → Option α) (s : Str) : Option α :=
  (List.range d).foldl (fun acc k => if names k = some s then f k else acc) none

/-- In which order a set of types and the edges of a graph are iterated: networkx goes through the edges by their source nodes, in the
order in which the nodes were added, which depends on the order of the set of types: `structure/pytorch/notears.py:346-352`. Both orders
are arbitrary here. -/
structure Visit where
  types : List Enc → List Enc
  edges : List (LEdge Str) → List (LEdge Str)
  perm : ∀ l, (edges l).Perm l

instance : CoeFun Visit fun _ => List Enc → List Enc := ⟨Visit.types⟩

/-- The graph with names: `structure/pytorch/notears.py:346-394`. The edges are in the order of their iteration; the order of the nodes
is not modelled. -/
noncomputable def renameLearned (cols : List Str) (order : Visit) (g : Learned ℕ) : Except Err (Learned Str) :=
  match updateAllNames (order g.encs) (fun i => cols[i]?) with
  | .error e => .error e
  | .ok names =>
    match g.edges.mapM (nameEdge names) with
    | .error e => .error e
    | .ok es =>
      match Notears.rename cols g.collapsed with
      | .error e => .error (liftErr e)
      | .ok c => .ok
        { nodes := ((List.range g.arch.d).filterMap names).dedup
          edges := order.edges (es.foldl addLEdge [])
          bias := byName g.arch.d names g.bias
          distType := byName g.arch.d names g.distType
          collapsed := c
          arch := g.arch
          encs := g.encs
          params := g.params
          warned := g.warned
          rho := g.rho }

/-- `from_pandas`: `structure/pytorch/notears.py:230-394`. -/
noncomputable def fromPandas (minimize : Minimizer ℝ) (init : ℕ → ℝ) (fuel : ℕ) (order : Visit) (X : Table)
    (x : Args Str) : Except Err (Learned Str) :=
  match locateSchema X.cols x.schema with
  | .error e => .error e
  | .ok schema =>
    if X.numeric.any fun b => !b then .error .valueError
    else
      match translate X.cols x.tabu with
      | .error e => .error (liftErr e)
      | .ok tabu =>
        match fromNumpy minimize init fuel X.values { x with schema := schema, tabu := tabu } with
        | .error e => .error e
        | .ok g => renameLearned X.cols order g

end Verif.Pytorch
