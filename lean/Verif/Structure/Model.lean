import Verif.Graph.Basic
import Mathlib.Algebra.Order.Ring.Rat
import Mathlib.Algebra.Order.Group.Unbundled.Abs

/-!
# Model of `StructureModel`

Source: `/repo/causalnex/structure/structuremodel.py` and the networkx 2.5 methods it extends.

Simplifications:
* attribute values are numbers (rationals: every finite float is one), strings or `None`;
* Python dictionaries are association lists read through `lookup`; key order is not observable here;
* node attributes and graph attributes are not modelled;
* malformed edge tuples (wrong arity) are excluded by typing;
* the lists of nodes and edges stand for sets: networkx iterates over the edges by source node, and over the nodes of
  a subgraph in the order of a set, so where the program takes the first of several candidates, the order in which it sees them is
  a parameter (`Visit`).
-/

namespace Verif.Structure

open Verif.Graph

variable {N : Type} [DecidableEq N]

/-- Attribute values. -/
inductive Val where
  | num (q : ℚ)
  | str (s : String)
  | none
  deriving DecidableEq

/-- An attribute dictionary, read with `get`. -/
abbrev Attrs := List (String × Val)

/-- `d[k]` / `d.get(k)`. -/
def Attrs.get (d : Attrs) (k : String) : Option Val := List.lookup k d

/-- `d.update(e)`: the keys of `e` win. -/
def Attrs.update (d e : Attrs) : Attrs := e ++ d

/-- `d.update({k: v})`. -/
def Attrs.set (d : Attrs) (k : String) (v : Val) : Attrs := Attrs.update d [(k, v)]

/-- An edge with its data dictionary. -/
structure EdgeRec (N : Type) where
  src : N
  dst : N
  attrs : Attrs
  deriving DecidableEq

/-- The pair `(u, v)` of an edge. -/
def EdgeRec.pair (e : EdgeRec N) : N × N := (e.src, e.dst)

/-- A structure model: nodes and edges, in an order that no method observes. -/
structure SM (N : Type) where
  nodes : List N
  edges : List (EdgeRec N)
  deriving DecidableEq

/-- An order in which the program may visit the elements of a collection. -/
abbrev Visit (α : Type) := {f : List α → List α // ∀ l, (f l).Perm l}

/-- The empty `StructureModel()` (structuremodel.py:83-105 with no data). -/
def SM.empty : SM N := ⟨[], []⟩

/-- The `(u, v)` pairs of the graph. -/
def SM.pairs (g : SM N) : List (N × N) := g.edges.map EdgeRec.pair

/-- The exceptions that can occur. -/
inductive Err where
  | unknownOrigin   -- ValueError of `_validate_origin`
  | keyError        -- `self[u][v]["origin"]` on an edge without origin
  | typeError       -- `abs(None)` on an edge without numeric weight
  | nodeNotFound    -- NodeNotFound, or the NetworkXError of `remove_node`
  | outOfFuel       -- artefact of the model; proved unreachable
  deriving DecidableEq

/-- structuremodel.py:55, the allowed origins. -/
def allowedOrigins : List String := ["unknown", "learned", "expert"]

/-- structuremodel.py:41-62 `_validate_origin`. -/
def validateOrigin (o : String) : Except Err Unit :=
  if o ∈ allowedOrigins then .ok () else .error .unknownOrigin

/-- networkx `add_node` on a bare node (external): append if absent. -/
def addNode (g : SM N) (u : N) : SM N :=
  if u ∈ g.nodes then g else { g with nodes := g.nodes ++ [u] }

/-- networkx `DiGraph.add_edge` / one step of `add_edges_from` (external): create missing end points, then
`datadict = adj[u].get(v, {}); datadict.update(attr)`. -/
def nxAddEdge (g : SM N) (u v : N) (attr : Attrs) : SM N :=
  let g1 := addNode (addNode g u) v
  if (u, v) ∈ g.pairs then
    { g1 with edges := g1.edges.map (fun e =>
        if e.pair = (u, v) then { e with attrs := e.attrs.update attr } else e) }
  else
    { g1 with edges := g1.edges ++ [⟨u, v, attr⟩] }

/-- structuremodel.py:125-151 `add_edge`. -/
def addEdge (g : SM N) (u v : N) (origin : String) (attr : Attrs) : Except Err (SM N) := do
  validateOrigin origin
  return nxAddEdge g u v (attr.set "origin" (.str origin))

/-- structuremodel.py:157-190 `add_edges_from`. Each edge of the bunch may carry its own dictionary
(3-tuple), which networkx applies after the common attributes
(`datadict.update(attr); datadict.update(dd)`); a 2-tuple is an edge with the empty dictionary. -/
def addEdgesFrom (g : SM N) (eb : List (N × N × Attrs)) (origin : String) (attr : Attrs) :
    Except Err (SM N) := do
  validateOrigin origin
  let attr := attr.set "origin" (.str origin)
  return eb.foldl (fun g e => nxAddEdge g e.1 e.2.1 (attr.update e.2.2)) g

/-- structuremodel.py:196-231 `add_weighted_edges_from`; networkx forwards to
`self.add_edges_from(((u, v, {weight: d}) ...), **attr)` with `attr` holding `origin`, so the overridden
method receives `origin=` from it. -/
def addWeightedEdgesFrom (g : SM N) (eb : List (N × N × ℚ)) (weight : String) (origin : String)
    (attr : Attrs) : Except Err (SM N) := do
  validateOrigin origin
  addEdgesFrom g (eb.map (fun e => (e.1, e.2.1, [(weight, Val.num e.2.2)]))) origin attr

/-- structuremodel.py:233-241 `edges_with_origin`. -/
def edgesWithOrigin (g : SM N) (origin : Val) : Except Err (List (N × N)) := do
  let os ← g.edges.mapM (fun e => match e.attrs.get "origin" with
    | some o => Except.ok (e.pair, o)
    | none => Except.error Err.keyError)
  return (os.filter (fun p => decide (p.2 = origin))).map Prod.fst

/-- `abs(w)` for the `weight` of an edge; `None`/missing/string raises `TypeError`. -/
def absWeight (e : EdgeRec N) : Except Err ℚ :=
  match e.attrs.get "weight" with
  | some (.num q) => .ok |q|
  | _ => .error .typeError

/-- networkx `remove_edges_from` (external). -/
def removeEdges (g : SM N) (ps : List (N × N)) : SM N :=
  { g with edges := g.edges.filter (fun e => decide (e.pair ∉ ps)) }

/-- networkx `remove_node` (external): the node and its edges; an absent node raises, which leaves the graph as it was. -/
def removeNode (g : SM N) (u : N) : Except Err (SM N) :=
  if u ∈ g.nodes then
    .ok ⟨g.nodes.filter (fun v => decide (v ≠ u)), g.edges.filter (fun e => decide (e.src ≠ u) && decide (e.dst ≠ u))⟩
  else .error .nodeNotFound

/-- structuremodel.py:243-253 `remove_edges_below_threshold`. -/
def removeEdgesBelowThreshold (g : SM N) (threshold : ℚ) : Except Err (SM N) := do
  let ws ← g.edges.mapM (fun e => do return (e.pair, ← absWeight e))
  return removeEdges g ((ws.filter (fun p => decide (p.2 < threshold))).map Prod.fst)

/-- `self.subgraph(c).copy()`: networkx copies the induced nodes and edges into a fresh object of the same
class with `add_nodes_from` and `add_edges_from((u, v, datadict.copy()) ...)`; the latter is the overridden
`add_edges_from` with default origin `unknown`. -/
def subgraphCopy (g : SM N) (c : List N) : Except Err (SM N) :=
  addEdgesFrom ⟨g.nodes.filter (fun v => decide (v ∈ c)), []⟩
    ((g.edges.filter (fun e => decide (e.src ∈ c) && decide (e.dst ∈ c))).map
      (fun e => (e.src, e.dst, e.attrs))) "unknown" []

/-- `self.copy()` and, with deep copies of the attributes, `self.to_directed()` (`to_directed_class`,
structuremodel.py:107-112): networkx fills a fresh `StructureModel` with `add_nodes_from` and `add_edges_from`. -/
def copyGraph (g : SM N) : Except Err (SM N) :=
  addEdgesFrom ⟨g.nodes, []⟩ (g.edges.map (fun e => (e.src, e.dst, e.attrs))) "unknown" []

/-- `self.reverse()` (networkx): a fresh graph of the same class, filled with `add_nodes_from` and
`add_edges_from((v, u, deepcopy(d)) ...)`. -/
def reverseGraph (g : SM N) : Except Err (SM N) :=
  addEdgesFrom ⟨g.nodes, []⟩ (g.edges.map (fun e => (e.dst, e.src, e.attrs))) "unknown" []

/-- Data a `StructureModel` can be created from: an edge list, whose entries may have dictionaries; a networkx graph or
a dict of dicts, given by its nodes and the entries of its adjacency (for an undirected graph both directions); a dict of
lists. -/
inductive Incoming (N : Type) where
  | edgeList (eb : List (N × N × Attrs))
  | graph (nodes : List N) (eb : List (N × N × Attrs))
  | lists (d : List (N × List N))

/-- The nodes that networkx adds with `add_nodes_from`. -/
def Incoming.nodes : Incoming N → List N
  | .edgeList _ => []
  | .graph ns _ => ns
  | .lists d => d.map Prod.fst

/-- The edges that networkx adds with `add_edges_from`. -/
def Incoming.edges : Incoming N → List (N × N × Attrs)
  | .edgeList eb => eb
  | .graph _ eb => eb
  | .lists d => d.flatMap fun q => q.2.map fun v => (q.1, v, [])

/-- A square array as incoming data, given by its rows: networkx (`from_numpy_array`) adds the nodes `0, ..., n - 1` and an edge with
attribute `weight` for each entry other than zero. -/
def Incoming.array (A : List (List ℚ)) : Incoming ℕ :=
  .graph (List.range A.length) (A.zipIdx.flatMap fun r => (r.1.zipIdx.filter fun x => decide (x.1 ≠ 0)).map fun x =>
    (r.2, x.2, [("weight", .num x.1)]))

/-- structuremodel.py:83-105 `StructureModel(incoming_graph_data, origin=origin)`: networkx's `to_networkx_graph` calls the
overridden `add_edges_from`; afterwards the origin of every edge is set.  Data frames and sparse matrices as incoming data are
left out, as are attributes of nodes and graphs. -/
def construct (d : Incoming N) (origin : String) : Except Err (SM N) := do
  validateOrigin origin
  let g ← addEdgesFrom (d.nodes.foldl addNode SM.empty) d.edges "unknown" []
  return { g with edges := g.edges.map fun e => { e with attrs := e.attrs.set "origin" (.str origin) } }

/-- `nx.weakly_connected_components(self)`. -/
def SM.weak (g : SM N) : List (List N) := weakComponents g.nodes g.pairs

/-- structuremodel.py:255-272 `get_largest_subgraph`, the loop body over the list of subgraphs. -/
def largestLoop (g : SM N) : List (List N) → ℕ → Option (SM N) → Except Err (Option (SM N))
  | [], _, best => .ok best
  | c :: cs, n, best => do
    let s ← subgraphCopy g c
    if s.edges.length > n then largestLoop g cs s.edges.length (some s)
    else largestLoop g cs n best

/-- structuremodel.py:255-272 `get_largest_subgraph`; the components are visited in the order `vis`. -/
def getLargestSubgraph (vis : Visit (List N)) (g : SM N) : Except Err (Option (SM N)) := largestLoop g (vis.1 g.weak) 0 none

/-- structuremodel.py:287-292, the loop of `get_target_subgraph`. -/
def targetLoop (g : SM N) (node : N) : List (List N) → Except Err (SM N)
  | [] => .error .nodeNotFound
  | c :: cs => do
    let s ← subgraphCopy g c
    if node ∈ s.nodes then return s else targetLoop g node cs

/-- structuremodel.py:274-294 `get_target_subgraph`. -/
def getTargetSubgraph (g : SM N) (node : N) : Except Err (SM N) :=
  if node ∈ g.nodes then targetLoop g node g.weak else .error .nodeNotFound

/-- Python's `min(..., key=...)`: the first element with the least key. -/
def minByKey {α : Type} (b : α × ℚ) : List (α × ℚ) → α × ℚ
  | [] => b
  | x :: xs => if x.2 < b.2 then minByKey x xs else minByKey b xs

/-- `nx.algorithms.is_directed_acyclic_graph(self)`. -/
def SM.isDag (g : SM N) : Bool := Graph.isDag g.nodes g.pairs

/-- structuremodel.py:296-303 `threshold_till_dag`; the loop deletes one edge per round, so the number of
edges is enough fuel.  `self.edges` is visited in the order `vis`, which decides between edges of the same weight. -/
def tillDagLoop (vis : Visit (EdgeRec N)) : ℕ → SM N → Except Err (SM N)
  | 0, g =>
    if g.isDag then .ok g
    else do
      let _ ← (vis.1 g.edges).mapM (fun e => do return (e.pair, ← absWeight e))
      .error .outOfFuel
  | k + 1, g =>
    if g.isDag then .ok g
    else do
      let ws ← (vis.1 g.edges).mapM (fun e => do return (e.pair, ← absWeight e))
      match ws with
      | w :: ws => tillDagLoop vis k (removeEdges g [(minByKey w ws).1])
      | [] => .error .outOfFuel

/-- structuremodel.py:296-303 `threshold_till_dag`. -/
def thresholdTillDag (vis : Visit (EdgeRec N)) (g : SM N) : Except Err (SM N) := tillDagLoop vis g.edges.length g

/-! ## Histories -/

/-- The operations a user can apply to a structure model. -/
inductive Op (N : Type) where
  | addNode (u : N)
  | addEdge (u v : N) (origin : String) (attr : Attrs)
  | addEdgesFrom (eb : List (N × N × Attrs)) (origin : String) (attr : Attrs)
  | addWeightedEdgesFrom (eb : List (N × N × ℚ)) (weight : String) (origin : String) (attr : Attrs)
  | removeEdge (u v : N)
  | removeNode (u : N)
  | clear
  | removeBelow (t : ℚ)
  | tillDag (vis : Visit (EdgeRec N))
  | largest (vis : Visit (List N))   -- continue with the largest subgraph
  | target (n : N)    -- continue with the target subgraph
  | subgraph (c : List N)   -- continue with `subgraph(c).copy()`
  | construct (d : Incoming N) (origin : String)   -- continue with a new graph
  | copy              -- continue with a copy
  | reverse           -- continue with the reversed graph

/-- One call: the outcome, an exception or the new graph. -/
def exec (g : SM N) : Op N → Except Err (SM N)
  | .addNode u => .ok (addNode g u)
  | .addEdge u v o a => addEdge g u v o a
  | .addEdgesFrom eb o a => addEdgesFrom g eb o a
  | .addWeightedEdgesFrom eb w o a => addWeightedEdgesFrom g eb w o a
  | .removeEdge u v => .ok (removeEdges g [(u, v)])
  | .removeNode u => removeNode g u
  | .clear => .ok SM.empty
  | .removeBelow t => removeEdgesBelowThreshold g t
  | .tillDag vis => thresholdTillDag vis g
  | .largest vis => do return (← getLargestSubgraph vis g).getD g
  | .target n => getTargetSubgraph g n
  | .subgraph c => subgraphCopy g c
  | .construct d o => construct d o
  | .copy => copyGraph g
  | .reverse => reverseGraph g

/-- The graph after a call; a raised exception leaves it as it was (the code validates before mutating). -/
def step (g : SM N) (op : Op N) : SM N :=
  match exec g op with
  | .ok g' => g'
  | .error _ => g

/-- The graph after a history of calls. -/
def run (g : SM N) (ops : List (Op N)) : SM N := ops.foldl step g

end Verif.Structure
