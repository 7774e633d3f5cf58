import Verif.Str.Dict
import Verif.Str.Basic
import Mathlib.Tactic.Push

/-!
# Attributes of plots

Model of `_add_attributes` and of the attributes set in `plot_structure` (`plots/plots.py`). Dictionaries of attributes are mutable objects:
positions in a heap. Values of attributes are strings and numbers, so they have no parts that can change. Nodes are of any type.
-/

namespace Verif.Plots

open Verif.Str Verif.Dict

/-- A dictionary of attributes. -/
abbrev Attrs (V : Type) := List (Str × V)

/-- A graph: the dictionaries of its nodes and edges, by reference. -/
structure Graph (N : Type) where
  nodes : List (N × ℕ)
  edges : List ((N × N) × ℕ)

/-- A style (`WEAK`, `NORMAL`, `STRONG`), by references: `plots/plots.py:238`. -/
structure Style where
  weak : ℕ
  normal : ℕ
  strong : ℕ

section
variable {N V : Type} [DecidableEq N]

/-- The dictionary at a reference. -/
def deref (h : List (Attrs V)) (r : ℕ) : Attrs V := h.getD r []

/-- `deepcopy(sm)`: new dictionaries; two references to one object stay so. (Objects that the graph does not use are copied as well, which
cannot be observed.) `plots/plots.py:196`. -/
def deepcopy (h : List (Attrs V)) (g : Graph N) : List (Attrs V) × Graph N :=
  (h ++ h, ⟨g.nodes.map fun p => (p.1, p.2 + h.length), g.edges.map fun p => (p.1, p.2 + h.length)⟩)

/-- `d[k] = v` for the dictionary at a reference. -/
def setAt (h : List (Attrs V)) (r : ℕ) (k : Str) (v : V) : List (Attrs V) := h.set r (Dict.set (deref h r) k v)

/-- `d.update(l)` for the dictionary at a reference. -/
def updateAt (h : List (Attrs V)) (r : ℕ) (l : Attrs V) : List (Attrs V) := h.set r (update (deref h r) l)

/-- `"label"`. -/
def labelKey : Str := ['l', 'a', 'b', 'e', 'l']

/-- The loop over the nodes for the labels; `label n` is `"%s\n\n " % n`: `plots/plots.py:199-200`. -/
def setLabels (label : N → V) (h : List (Attrs V)) (g : Graph N) : List (Attrs V) :=
  g.nodes.foldl (fun h p => setAt h p.2 labelKey (label p.1)) h

/-- `nx.set_node_attributes(_sm, v, k)` and `nx.set_edge_attributes(_sm, v, k)` for a value that is no dictionary: for all. -/
def setAll (h : List (Attrs V)) (rs : List ℕ) (k : Str) (v : V) : List (Attrs V) := rs.foldl (fun h r => setAt h r k v) h

/-- Common attributes: `{**NORMAL}`, updated with the given ones, then set for all nodes or edges one by one: `plots/plots.py:203-216`. -/
def applyCommon (h : List (Attrs V)) (rs : List ℕ) (normal : ℕ) (all : Option ℕ) : List (Attrs V) :=
  let new := h.length
  let h := h ++ [update [] (deref h normal)]
  let h := match all with
    | none => h
    | some r => if deref h r = [] then h else updateAt h new (deref h r)
  (deref h new).foldl (fun h e => setAll h rs e.1 e.2) h

/-- `nx.set_node_attributes(_sm, values)` and `nx.set_edge_attributes(_sm, values)` for a dictionary of dictionaries; unknown nodes and
edges are skipped: `plots/plots.py:219-222`. -/
def applySpecific {A : Type} [DecidableEq A] (h : List (Attrs V)) (items : List (A × ℕ)) (values : Option (List (A × ℕ))) : List (Attrs V) :=
  match values with
  | none => h
  | some l => l.foldl (fun h p =>
      match get? items p.1 with
      | none => h
      | some r => updateAt h r (deref h p.2)) h

/-- The arguments of `_add_attributes`; dictionaries by reference. -/
structure PlotArgs (N : Type) where
  allNode : Option ℕ := none
  allEdge : Option ℕ := none
  node : Option (List (N × ℕ)) := none
  edge : Option (List ((N × N) × ℕ)) := none
  graph : Option ℕ := none

/-- `_add_attributes`: `plots/plots.py:189-224`. -/
def addAttributes (label : N → V) (nodeStyle edgeStyle : Style) (h : List (Attrs V)) (g : Graph N) (a : PlotArgs N) :
    List (Attrs V) × Graph N :=
  let (h, g) := deepcopy h g
  let h := setLabels label h g
  let h := applyCommon h (g.nodes.map (·.2)) nodeStyle.normal a.allNode
  let h := applyCommon h (g.edges.map (·.2)) edgeStyle.normal a.allEdge
  let h := applySpecific h g.nodes a.node
  let h := applySpecific h g.edges a.edge
  (h, g)

/-- What is plotted: the attributes of nodes, edges and of the whole. -/
structure Plot (N V : Type) where
  nodes : List (N × Attrs V)
  edges : List ((N × N) × Attrs V)
  graph : Attrs V

/-- `plot_structure` up to the layout; `own` are the attributes of the graph itself. `nx.nx_agraph.to_agraph` is taken to keep all
attributes (it turns values into strings): `plots/plots.py:105-135`. -/
def plotStructure (label : N → V) (nodeStyle edgeStyle : Style) (graphStyle : ℕ) (own : Attrs V) (h : List (Attrs V)) (g : Graph N)
    (a : PlotArgs N) : List (Attrs V) × Plot N V :=
  let (h, g) := addAttributes label nodeStyle edgeStyle h g a
  let attrs := update own (deref h graphStyle)
  let attrs := match a.graph with
    | none => attrs
    | some r => if deref h r = [] then attrs else update attrs (deref h r)
  (h, ⟨g.nodes.map fun p => (p.1, deref h p.2), g.edges.map fun p => (p.1, deref h p.2), attrs⟩)

/-! ### Specification -/

/-- The attribute of a dictionary that may not be given. -/
def given (h : List (Attrs V)) (r : Option ℕ) (k : Str) : Option V := r.bind fun r => get? (deref h r) k

/-- The attribute for one node or edge that may not be given. -/
def givenFor {A : Type} [DecidableEq A] (h : List (Attrs V)) (l : Option (List (A × ℕ))) (x : A) (k : Str) : Option V :=
  given h (l.bind fun l => get? l x) k

/-- A graph as networkx keeps it: nodes and edges once, each with its own dictionary. -/
structure Graph.WF (g : Graph N) (size : ℕ) : Prop where
  nodes : (g.nodes.map (·.1)).Nodup
  edges : (g.edges.map (·.1)).Nodup
  refs : (g.nodes.map (·.2) ++ g.edges.map (·.2)).Nodup
  bound : ∀ r ∈ g.nodes.map (·.2) ++ g.edges.map (·.2), r < size

/-- Arguments: existing objects, and dictionaries with every key once. -/
structure PlotArgs.WF (a : PlotArgs N) (size : ℕ) : Prop where
  allNode : ∀ r, a.allNode = some r → r < size
  allEdge : ∀ r, a.allEdge = some r → r < size
  graph : ∀ r, a.graph = some r → r < size
  node : ∀ l, a.node = some l → (l.map (·.1)).Nodup ∧ ∀ p ∈ l, p.2 < size
  edge : ∀ l, a.edge = some l → (l.map (·.1)).Nodup ∧ ∀ p ∈ l, p.2 < size

end
end Verif.Plots
