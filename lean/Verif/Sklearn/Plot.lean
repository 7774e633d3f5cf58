import Verif.Sklearn.PropsCoef
import Verif.Plots.AttrMain

/-!
# `plot_dag` of the scikit-learn wrappers (C119)

Drawing itself (`plots/display.py`, pygraphviz, matplotlib) is not modelled: the result is what is handed to it.
-/

namespace Verif.Sklearn

open Verif.Str Verif.Pytorch Verif.Plots

/-- References to the default styles of `causalnex.plots`. -/
structure Styles where
  node : Style
  edge : Style
  graph : ℕ

/-- `"scale"`. -/
def scaleKey : Str := ['s', 'c', 'a', 'l', 'e']

/-- `"neato"`. -/
def neato : Str := ['n', 'e', 'a', 't', 'o']

/-- What is not modelled: the label of a node, and the values of the attributes of nodes (`bias`, `dist_type`) and edges (`origin`, `weight`,
`mean_effect`), and the value `"0.5"`. -/
structure Texts (V : Type) where
  label : Str → V
  nodeAttrs : Str → Attrs V
  edgeAttrs : LEdge Str → Attrs V
  half : V

section
variable {V : Type}

/-- `copy.deepcopy(self.graph_)` (and, for fewer edges, `remove_edge` on the copy): new dictionaries for the nodes and the edges:
`structure/pytorch/sklearn/_base.py:378-380`. -/
def copyGraph (t : Texts V) (h : List (Attrs V)) (nodes : List Str) (es : List (LEdge Str)) : List (Attrs V) × Graph Str :=
  (h ++ (nodes.map t.nodeAttrs ++ es.map t.edgeAttrs),
    ⟨nodes.zipIdx h.length, (es.map fun e => (e.src, e.dst)).zipIdx (h.length + nodes.length)⟩)

/-- The arguments for `plot_structure`; `kwargs` is `plot_structure_kwargs` with the entry `prog` apart, and `none` for `None` and for an empty
dictionary: `structure/pytorch/sklearn/_base.py:383-390`. -/
def plotKwargs (t : Texts V) (st : Styles) (h : List (Attrs V)) (kwargs : Option (PlotArgs Str × Option Str)) : List (Attrs V) × PlotArgs Str :=
  match kwargs with
  | none => (h ++ [[(scaleKey, t.half)]], { allNode := some st.node.weak, allEdge := some st.edge.weak, graph := some h.length })
  | some a => (h, a.1)

/-- `plot_dag`: `structure/pytorch/sklearn/_base.py:348-402`. The result is the plot and the name of the layout program; `check_is_fitted` raises
`NotFittedError`, which is a `ValueError`. The estimator is returned as it is after the call. -/
noncomputable def plotDag (t : Texts V) (st : Styles) (own : Attrs V) (h : List (Attrs V)) (e : Est) (enforce : Bool)
    (kwargs : Option (PlotArgs Str × Option Str)) : List (Attrs V) × Est × Except Err (Plot Str V × Str) :=
  match e.fitted with
  | none => (h, e, .error .valueError)
  | some f =>
    let es := if enforce then tillDag f.graph.edges.length f.graph.edges else f.graph.edges
    let (h, g) := copyGraph t h f.graph.nodes es
    let (h, a) := plotKwargs t st h kwargs
    let prog := (kwargs.bind (·.2)).getD neato
    let (h, p) := plotStructure t.label st.node st.edge st.graph own h g a
    (h, e, .ok (p, prog))

end

end Verif.Sklearn
