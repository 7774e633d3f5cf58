import Verif.Generators.Model
import Verif.Dynotears.Model

/-!
# Model of `causalnex.structure.data_generators.wrappers`: dynamic structures

All random numbers are parameters; theorems quantify over them.
-/

namespace Verif.Generators

open Verif.Notears (Graph Edge ofMatrix addNodes addWeightedEdges)
open Verif.Str (Str natStr)
open Verif.Dynotears (lagName)

/-- The random numbers drawn by `_generate_inter_structure`: uniform numbers, at least 0 and less than 1. `unif i`
and `sign i` are those of turn `i`. -/
structure InterDraws (K : Type) where
  rand : ℕ → ℕ → K
  unif : ℕ → ℕ → ℕ → K
  sign : ℕ → ℕ → ℕ → K

section
variable {K : Type} [Field K] [LinearOrder K]

/-- `StructureModel(df)` for a square data frame with the same index and columns (networkx, external), origin
"unknown": `structure/structuremodel.py:102-105`. -/
def ofFrame (labels : List Str) (M : ℕ → ℕ → K) : Graph Str K :=
  let g := ofMatrix labels.length M
  { nodes := labels
    edges := g.edges.map fun e => ⟨labels.getD e.src [], labels.getD e.dst [], e.weight, e.origin⟩ }

/-- `b`: `structure/data_generators/wrappers.py:479-488`. -/
def interFlags (n : ℕ) (degree : K) (graphType : String) (r : InterDraws K) : Except Err (ℕ → ℕ → K) :=
  if graphType = "erdos-renyi" then
    let prob := degree / (n : K)
    .ok fun i j => if r.rand i j < prob then 1 else 0
  else if graphType = "full" then .ok fun _ _ => 1
  else .error .valueError

/-- `u_i`: `structure/data_generators/wrappers.py:490-495`.  Simplification: exact numbers; for `w_decay = 0` the
code computes infinities from the second turn on. -/
def interWeights (wMin wMax decay neg : K) (r : InterDraws K) (i a b : ℕ) : K :=
  let u := (wMin + (wMax - wMin) * r.unif i a b) / decay ^ i
  if r.sign i a b < neg then u * -1 else u

/-- The index and the columns of the square frame: `structure/data_generators/wrappers.py:500-515`. -/
def interLabels (n p : ℕ) : List Str :=
  ((List.range p).flatMap fun l => (List.range n).map fun var => lagName (natStr var) (l + 1)) ++
    (List.range n).map fun var => lagName (natStr var) 0

/-- `_generate_inter_structure`: `structure/data_generators/wrappers.py:443-518`.  Row `i` of the concatenated
weights is row `i % n` of turn `i / n`; the frame is filled up with zeros to a square. -/
def generateInter (n p : ℕ) (degree : K) (graphType : String) (wMin wMax decay neg : K) (r : InterDraws K) :
    Except Err (Graph Str K) :=
  if wMax < wMin then .error .valueError
  else
    match interFlags n degree graphType r with
    | .error e => .error e
    | .ok b =>
      let u := fun i j => interWeights wMin wMax decay neg r (i / n) (i % n) j
      let a := fun i j => (if b i j ≠ 0 then 1 else 0) * u i j
      .ok (ofFrame (interLabels n p) fun i j => if i < p * n ∧ p * n ≤ j then a i (j - p * n) else 0)

/-- The arguments of `generate_structure_dynamic` besides the number of nodes and `p`. -/
structure DynParams (K : Type) where
  degreeIntra : K
  degreeInter : K
  typeIntra : String
  typeInter : String
  wMinIntra : K
  wMaxIntra : K
  wMinInter : K
  wMaxInter : K
  decay : K

/-- `generate_structure_dynamic`: `structure/data_generators/wrappers.py:374-440`.  Simplification: `num_nodes`
and `p` are not negative. -/
def generateDynamic [FloorRing K] (n p : ℕ) (a : DynParams K) (r : Draws K n) (r' : InterDraws K) :
    Except Err (Graph Str K) :=
  match generateStructure n a.degreeIntra a.typeIntra a.wMinIntra a.wMaxIntra r with
  | .error e => .error e
  | .ok intra =>
    match generateInter n p a.degreeInter a.typeInter a.wMinInter a.wMaxInter a.decay (1 / 2) r' with
    | .error e => .error e
    | .ok inter =>
      let res := addNodes ⟨[], []⟩ inter.nodes
      let res := addNodes res (intra.nodes.map fun u => lagName (natStr u) 0)
      let res := addWeightedEdges "unknown" res (inter.edges.map fun e => (e.src, e.dst, e.weight))
      .ok (addWeightedEdges "unknown" res
        (intra.edges.map fun e => (lagName (natStr e.src) 0, lagName (natStr e.dst) 0, e.weight)))

end

end Verif.Generators
