import Verif.Generators.Dynamic
import Verif.Generators.Topo
import Mathlib.Data.Char
import Mathlib.Data.List.Lex
import Mathlib.Data.List.Sort
import Mathlib.Data.List.Infix

/-!
# Model of `generate_dataframe_dynamic`: data from a dynamic structure

The random noise and the topological order are parameters; theorems quantify over them.
-/

namespace Verif.Generators

open Verif.Notears (Graph)
open Verif.Str (Str)

/-- Exceptions of `generate_dataframe_dynamic`. -/
inductive SimErr
  | valueError | zeroDivision | unfeasible
  deriving DecidableEq, Repr

/-- A data frame with the rows `0, ..., rows - 1`: the columns with their names. -/
structure DataFrame (K : Type) where
  rows : ℕ
  cols : List (Str × (ℕ → K))

/-- `frame.loc[row, label]`, the first column of that name. -/
def DataFrame.get {K : Type} (F : DataFrame K) (label : Str) (row : ℕ) : Option K :=
  if row < F.rows then (F.cols.find? fun c => c.1 = label).map fun c => c.2 row else none

section
variable {K : Type} [Field K] [LinearOrder K]

/-- An entry of `nx.to_numpy_array(g, nodelist)` (networkx, external): the weight of the edge, 0 if there is none. -/
def weightIn (g : Graph Str K) (u v : Str) : K :=
  match g.edges.find? fun e => e.src = u ∧ e.dst = v with
  | some e => e.weight
  | none => 0

/-- `"_lag0" in el`. -/
def isPresent (el : Str) : Bool := decide ("_lag0".toList <:+: el)

/-- `intra_nodes`: `structure/data_generators/wrappers.py:550`. -/
def intraNodes (g : Graph Str K) : List Str := (g.nodes.filter isPresent).insertionSort (· ≤ ·)

/-- `inter_nodes`: `structure/data_generators/wrappers.py:551`. -/
def interNodes (g : Graph Str K) : List Str := (g.nodes.filter fun el => !isPresent el).insertionSort (· ≤ ·)

/-- The indices of the nonzero entries of a column: `g_intra.predecessors(j)`, `g_inter.predecessors(j + p * d)`. -/
def predecessors (m : ℕ) (M : ℕ → ℕ → K) (j : ℕ) : List ℕ := (List.range m).filter fun i => M i j ≠ 0

/-- The new value of `X[t, j]`: `structure/data_generators/wrappers.py:570-582`. -/
def newValue (d R : ℕ) (w a : ℕ → ℕ → K) (drift noise lags : ℕ → K) (x : ℕ → K) (j : ℕ) : K :=
  drift j + ((predecessors d w j).map fun i => x i * w i j).sum +
    ((predecessors R a j).map fun q => lags q * a q j).sum + noise j

/-- Row `t` of `X` and of `Xlags`: `structure/data_generators/wrappers.py:568-585`. -/
def simulate (d R : ℕ) (w a : ℕ → ℕ → K) (drift : ℕ → K) (noise : ℕ → ℕ → K) (order : List ℕ) :
    ℕ → (ℕ → K) × (ℕ → K)
  | 0 => (assignAll (newValue d R w a drift (noise 0) fun _ => 0) order fun _ => 0, fun _ => 0)
  | t + 1 =>
    let prev := simulate d R w a drift noise order t
    let lags := fun q => if q < d then prev.1 q else prev.2 (q - d)
    (assignAll (newValue d R w a drift (noise (t + 1)) lags) order fun _ => 0, lags)

/-- The edges of `g_intra` as pairs of indices. -/
def intraEdges (d : ℕ) (w : ℕ → ℕ → K) : List (ℕ × ℕ) :=
  (Verif.Notears.cells d).filter fun c => w c.1 c.2 ≠ 0

/-- `generate_dataframe_dynamic`: `structure/data_generators/wrappers.py:521-592`.  `noise t j` is the number
drawn for variable `j` in turn `t`, of whatever distribution; `order` is the result of `nx.topological_sort`.
Simplifications: sizes are not negative, there is a drift for every variable, and if the number of lagged nodes is
not a multiple of the number of the others, the code may raise `IndexError` in place of `ValueError`. -/
def generateDataframe (g : Graph Str K) (nSamples burnIn : ℕ) (semType : String) (drift : Option (ℕ → K))
    (noise : ℕ → ℕ → K) (order : List ℕ) : Except SimErr (DataFrame K) :=
  if semType ∉ ["linear-gauss", "linear-exp", "linear-gumbel"] then .error .valueError
  else
    let intra := intraNodes g
    let inter := interNodes g
    let w := fun i j => weightIn g (intra.getD i []) (intra.getD j [])
    let a := fun q j => weightIn g (inter.getD q []) (intra.getD j [])
    let d := intra.length
    if d = 0 then .error .zeroDivision
    else if Verif.Graph.isDag (List.range d) (intraEdges d w) = false then .error .unfeasible
    else if inter.length % d ≠ 0 then .error .valueError
    else
      let total := nSamples + burnIn
      let drift := drift.getD fun _ => 0
      let X := simulate d inter.length w a drift noise order
      -- `X[-n_samples:]` is all of `X` if `n_samples` is 0
      let first := if nSamples = 0 then 0 else burnIn
      .ok ⟨total - first,
        ((List.range d).map fun j => (intra.getD j [], fun t => (X (first + t)).1 j)) ++
        (List.range inter.length).map fun q => (inter.getD q [], fun t => (X (first + t)).2 q)⟩

end

end Verif.Generators
