import Verif.Generators.Poisson
import Verif.Generators.Gp
import Verif.Mapper.Model
import Verif.Graph.Basic
import Mathlib.Algebra.Order.Floor.Defs
import Mathlib.Data.Real.Archimedean

/-!
# Model of `sem_generator` and `nonlinear_sem_generator` (C55, C56)

`n` is the number of rows.  A column is a function of the row, an array a function of the index of the column.  All random
numbers are parameters (`SemDraws`), as is the order in which `nx.topological_sort` returns the nodes.  Simplification:
`np.random` refusing a negative standard deviation is not modelled.
-/

namespace Verif.Generators

open Verif.Mapper Verif.Str

/-- A column of an array. -/
abbrev Col (n : ℕ) : Type := Fin n → ℝ

/-- A `networkx` graph with optional weights. -/
structure SemGraph (N : Type) where
  nodes : List N
  edges : List (N × N × Option ℝ)

/-- The edges without the weights. -/
def SemGraph.pairs {N : Type} (g : SemGraph N) : List (N × N) := g.edges.map fun e => (e.1, e.2.1)

/-- `graph.predecessors(v)`. -/
def SemGraph.preds {N : Type} [DecidableEq N] (g : SemGraph N) (v : N) : List N :=
  (g.edges.filter fun e => e.2.1 = v).map (·.1)

/-- `distributions` after `_set_default_distributions`: `structure/data_generators/core.py:500-516`; the defaults are those
of the fields.  Simplification: the value of `count` is a number. -/
structure Distributions where
  continuous : String := "gaussian"
  binary : String := "logit"
  categorical : String := "logit"
  weight : String := "uniform"
  intercept : String := "uniform"
  count : ℝ := 5 / 100

/-- The random numbers. -/
structure SemDraws (N : Type) (n : ℕ) where
  /-- `np.random.uniform` or `np.random.normal` for the weights of an edge -/
  weight : N → N → ℕ → ℕ → ℝ
  /-- `np.random.uniform` for `sparse_mask` -/
  mask : N → N → ℕ → ℕ → ℝ
  /-- for the intercept of a feature -/
  intercept : ℕ → ℝ
  /-- for the noise: distribution, scale, variable, number of the feature, row -/
  noise : String → ℝ → N → ℕ → Fin n → ℝ
  /-- `np.random.uniform` added at the roots -/
  eta : N → Fin n → ℝ
  /-- `np.random.uniform` deciding about zeros -/
  zif : N → Fin n → ℝ
  /-- `np.random.uniform` in `_sample_poisson` -/
  poisson : N → Fin n → ℝ

/-- The keys of `__distribution_mapper`: `structure/data_generators/core.py:49-57`. -/
def knownDistributions : List String :=
  ["gaussian", "normal", "student-t", "exponential", "gumbel", "probit", "logit"]

section
variable {N : Type} [DecidableEq N] {n : ℕ}

/-- `_handle_distribution_sampling`: `structure/data_generators/core.py:310-326`. -/
noncomputable def drawNoise (D : SemDraws N n) (distribution : String) (noiseStd : ℝ) (root : Bool) (v : N) (c : ℕ) (r : Fin n) : ℝ :=
  let std := if root then 1 else noiseStd
  if distribution = "student-t" then D.noise distribution 1 v c r * std else D.noise distribution std v c r

/-- `np.quantile(x, q)`, by its documentation (linear interpolation). -/
noncomputable def quantile (x : Col n) (q : ℝ) : ℝ :=
  let l := (List.ofFn x).insertionSort (· ≤ ·)
  let h := ((n : ℝ) - 1) * q
  let i := ⌊h⌋₊
  l.getD i 0 + (h - i) * (l.getD (i + 1) 0 - l.getD i 0)

/-- `(latent > t).astype(int)`. -/
noncomputable def labelsAbove (latent : Col n) (t : ℝ) : Col n := fun r => if t < latent r then 1 else 0

/-- `np.mean(labels)`. -/
noncomputable def colMean (x : Col n) : ℝ := (List.ofFn x).sum / n

/-- `_sample_binary_from_latent` after the noise was added: `structure/data_generators/core.py:381-388`. -/
noncomputable def binaryLabels (latent : Col n) : Col n :=
  let labels := labelsAbove latent 0
  if colMean labels < 5 / 100 then labelsAbove latent (quantile latent (5 / 100))
  else if 1 - 5 / 100 < colMean labels then labelsAbove latent (quantile latent (1 - 5 / 100))
  else labels

/-- `_exp_relu`: `structure/data_generators/core.py:426-428`. -/
noncomputable def expRelu (x : ℝ) : ℝ := if x < 0 then Real.exp x else x

/-- `np.argmax`: the first position of a maximum. -/
noncomputable def argmax (l : List ℝ) : ℕ := l.findIdx fun a => decide (∀ b ∈ l, b ≤ a)

/-- The columns written for a variable, given the means of its `k` features:
`_add_continuous_noise`, `_sample_binary_from_latent`, `_sample_count_from_latent`, `_sample_categories_from_latent` and the four
branches of the loop (`structure/data_generators/core.py:267-303`, `329-423`, `466-497`). -/
noncomputable def sampleVar (D : SemDraws N n) (dist : Distributions) (noiseStd : ℝ) (m : Mapper N) (v : N) (root : Bool) (k : ℕ)
    (mean : ℕ → Col n) : Except Err (List (Col n)) :=
  if v ∈ ofType m sContinuous then
    if dist.continuous ∉ knownDistributions then .error .valueError
    else .ok [fun r => mean 0 r + drawNoise D dist.continuous noiseStd root v 0 r]
  else if v ∈ ofType m sBinary then
    if dist.binary ∉ knownDistributions then .error .valueError
    else .ok [binaryLabels fun r => mean 0 r + drawNoise D dist.binary noiseStd root v 0 r]
  else if v ∈ ofType m sCount then
    if dist.count < 0 ∨ 1 < dist.count then .error .valueError
    else
      let eta := fun r => if root then mean 0 r + D.eta v r else mean 0 r
      -- the loop of the sampler ends within this number of steps (`samplePoisson_correct`)
      let count := (samplePoisson 5000 (fun r => expRelu (eta r)) (D.poisson v) 5001).getD fun _ => 0
      .ok [fun r => if D.zif v r < dist.count then 0 else (count r : ℝ)]
  else if v ∈ ofType m sCategorical then
    if dist.categorical ∉ knownDistributions then .error .valueError
    else
      let latent := fun c r => mean c r + drawNoise D dist.categorical noiseStd root v c r
      .ok ((List.range k).map fun i r => if argmax ((List.range k).map fun c => latent c r) = i then 1 else 0)
  else .ok []

/-- `x[:, idx] = cols`. -/
def writeCols {V : Type} (x : ℕ → V) (idx : List ℕ) (cols : List V) : ℕ → V :=
  (idx.zip cols).foldl (fun x e => Function.update x e.1 e.2) x

/-- One turn of the loop over the nodes.  `mean x v p j c` is the mean of the feature number `c` of the variable `v` with the
indices `j`, whose parents have the indices `p`: `structure/data_generators/core.py:254-303`, `706-755`.  (A variable that is
not categorical always has one index.) -/
noncomputable def semStep (g : SemGraph N) (D : SemDraws N n) (dist : Distributions) (noiseStd : ℝ) (m : Mapper N)
    (mean : (ℕ → Col n) → N → List ℕ → List ℕ → ℕ → Col n) (x : ℕ → Col n) (v : N) : Except Err (ℕ → Col n) :=
  match getIndices m v false with
  | .error e => .error e
  | .ok (.one _) => .error .valueError
  | .ok (.list jIdx) => match getIndicesList m (g.preds v) with
    | .error e => .error e
    | .ok parents => match sampleVar D dist noiseStd m v (decide (parents.length = 0)) jIdx.length (mean x v parents jIdx) with
      | .error e => .error e
      | .ok cols => .ok (writeCols x jIdx cols)

/-- The loop over the nodes. -/
noncomputable def semLoop (step : (ℕ → Col n) → N → Except Err (ℕ → Col n)) : List N → (ℕ → Col n) → Except Err (ℕ → Col n)
  | [], x => .ok x
  | v :: vs, x => match step x v with
    | .error e => .error e
    | .ok x => semLoop step vs x

/-- Setting a block of an array: `w[np.ix_(rows, cols)] = val`. -/
def setBlock (w : ℕ → ℕ → ℝ) (rows cols : List ℕ) (val : ℕ → ℕ → ℝ) : ℕ → ℕ → ℝ := fun i j =>
  if i ∈ rows ∧ j ∈ cols then val (rows.idxOf i) (cols.idxOf j) else w i j

/-- `(sparse_mask == np.min(sparse_mask)).astype(int) * weight`. -/
noncomputable def sparse (mask : ℕ → ℕ → ℝ) (rows cols : ℕ) (weight : ℝ) (a b : ℕ) : ℝ :=
  (if ∀ a' < rows, ∀ b' < cols, mask a b ≤ mask a' b' then 1 else 0) * weight

/-- The loop over the edges of `_create_weight_matrix`: `structure/data_generators/core.py:535-566`. -/
noncomputable def semWeights (D : SemDraws N n) (dist : Distributions) (idx : N → Option (List ℕ)) :
    List (N × N × Option ℝ) → (ℕ → ℕ → ℝ) → Except Err (ℕ → ℕ → ℝ)
  | [], w => .ok w
  | (u, v, weight) :: es, w => match idx u, idx v with
    | some from_, some to_ => match weight with
      | none =>
        if dist.weight ∈ ["uniform", "gaussian", "normal"] then
          semWeights D dist idx es (setBlock w from_ to_ (D.weight u v))
        else .error .valueError
      | some c =>
        if from_.length * to_.length = 1 then semWeights D dist idx es (setBlock w from_ to_ fun _ _ => c)
        else if 1 < from_.length * to_.length then
          semWeights D dist idx es (setBlock w from_ to_ (sparse (D.mask u v) from_.length to_.length c))
        else semWeights D dist idx es w
    | _, _ => .error .keyError

/-- `_create_weight_matrix`: `structure/data_generators/core.py:519-580`. -/
noncomputable def weightMatrix (g : SemGraph N) (D : SemDraws N n) (dist : Distributions) (m : Mapper N) (intercept : Bool) :
    Except Err (ℕ → ℕ → ℝ) :=
  let nCols := (m.varIndicesDict.map fun e => e.2.length).sum
  match semWeights D dist (Dict.get? m.varIndicesDict) g.edges fun _ _ => 0 with
  | .error e => .error e
  | .ok w =>
    if intercept then
      if dist.intercept ∈ ["uniform", "gaussian", "normal"] then
        .ok fun i j => if i = nCols then D.intercept j else w i j
      else .error .valueError
    else .ok w

/-- The result: names and columns. -/
abbrev SemFrame (N : Type) (n : ℕ) : Type := List (N × Col n)

/-- The names and types of the columns: `_init_sem_data_gen`, `structure/data_generators/core.py:592-615`, without the
initial content of the array. -/
noncomputable def initSem (fmt : N → ℕ → N) (types : List Str) (g : SemGraph N) (schema : Option (List (N × Str)))
    (defaultType : Str) : Except Err (Mapper N) :=
  open Classical in
  if ¬ Verif.Graph.Acyclic g.pairs then .error .valueError
  else match validateSchema g.nodes defaultType schema with
    | .error e => .error e
    | .ok schema => create fmt types schema

/-- `x[:, parents].dot(w[parents, j])`. -/
noncomputable def linearMean (w : ℕ → ℕ → ℝ) (x : ℕ → Col n) (parents : List ℕ) (j : ℕ) : Col n := fun r =>
  (parents.map fun i => x i r * w i j).sum

/-- `sem_generator`: `structure/data_generators/core.py:138-307`.  `types` is the order in which a set of names of types is
iterated, `order` that of `nx.topological_sort`, `empty` the content of the new array. -/
noncomputable def semGenerator (fmt : N → ℕ → N) (types : List Str) (order : List N) (empty : ℕ → Col n) (D : SemDraws N n)
    (g : SemGraph N) (schema : Option (List (N × Str))) (defaultType : Str) (noiseStd : ℝ) (dist : Distributions)
    (intercept : Bool) : Except Err (SemFrame N n) :=
  match initSem fmt types g schema defaultType with
  | .error e => .error e
  | .ok m => match weightMatrix g D dist m intercept with
    | .error e => .error e
    | .ok w =>
      let x := if intercept then Function.update empty (nFeatures m) fun _ => 1 else empty
      let mean := fun x (_ : N) parents (jIdx : List ℕ) c =>
        linearMean w x (if intercept then parents ++ [nFeatures m] else parents) (jIdx.getD c 0)
      match semLoop (semStep g D dist noiseStd m mean) order x with
      | .error e => .error e
      | .ok x => .ok (m.featureList.zip ((List.range (nFeatures m)).map x))

/-- `_gp_index(x[:, parents], kernel)` as a column. -/
noncomputable def gpMean {C : Type} (S : GpSampler C) (argsort : Argsort) (x : ℕ → Col n) (parents : List ℕ) : Col n := fun r =>
  (gpIndex S argsort 100 parents.length (List.ofFn fun r => parents.map fun i => x i r)).getD r 0

/-- `nonlinear_sem_generator`: `structure/data_generators/core.py:618-756`.  `S v c` draws the Gaussian process for feature
number `c` of `v`. -/
noncomputable def nonlinearSemGenerator {C : Type} (fmt : N → ℕ → N) (types : List Str) (order : List N) (empty : ℕ → Col n)
    (D : SemDraws N n) (S : N → ℕ → GpSampler C) (argsort : Argsort) (g : SemGraph N) (schema : Option (List (N × Str)))
    (defaultType : Str) (noiseStd : ℝ) (dist : Distributions) : Except Err (SemFrame N n) :=
  match initSem fmt types g schema defaultType with
  | .error e => .error e
  | .ok m =>
    match semLoop (semStep g D dist noiseStd m fun x v parents _ c => gpMean (S v c) argsort x parents) order empty with
    | .error e => .error e
    | .ok x => .ok (m.featureList.zip ((List.range (nFeatures m)).map x))

end

end Verif.Generators
