import Verif.Generators.Simulate

/-!
# Model of `gen_stationary_dyn_net_and_df`

All random numbers are parameters; theorems quantify over them.
-/

namespace Verif.Generators

open Verif.Notears (Graph)
open Verif.Str (Str)

/-- Exceptions of `gen_stationary_dyn_net_and_df`; `typeError` is that of `None + None`. -/
inductive GenErr
  | valueError | keyError | zeroDivision | unfeasible | typeError
  deriving DecidableEq, Repr

/-- Exceptions of `generate_structure_dynamic` are passed on. -/
def GenErr.ofStructure : Err → GenErr
  | .valueError => .valueError
  | .keyError => .keyError

/-- Exceptions of `generate_dataframe_dynamic` are passed on. -/
def GenErr.ofData : SimErr → GenErr
  | .valueError => .valueError
  | .zeroDivision => .zeroDivision
  | .unfeasible => .unfeasible

/-- The arguments of `gen_stationary_dyn_net_and_df`: `structure/data_generators/wrappers.py:595-611`. Simplification: sizes are not
negative. -/
structure StatArgs (K : Type) where
  n : ℕ
  nSamples : ℕ
  p : ℕ
  dyn : DynParams K
  semType : String
  trials : ℤ

/-- What happens by chance in one turn of the outer loop. `graphs k` are the random numbers for the `k`-th graph of this turn, or
`none` if its computation raises `OverflowError` or `FloatingPointError`; `noise` are the random numbers for the data (already scaled);
`lost` says whether the computation of the data raises one of these errors or leaves missing values. -/
structure Attempt (K : Type) (n : ℕ) where
  graphs : ℕ → Option (Draws K n × InterDraws K)
  noise : ℕ → ℕ → K
  lost : Bool

/-- What is returned, and whether there was a warning. -/
structure StatResult (K : Type) where
  graph : Graph Str K
  frame : DataFrame K
  intra : List Str
  inter : List Str
  warned : Bool

section
variable {K : Type} [Field K] [LinearOrder K]

/-- `burn_in = max(n_samples // 10, 50)`: `structure/data_generators/wrappers.py:645`. -/
def statBurnIn (nSamples : ℕ) : ℕ := max (nSamples / 10) 50

/-- The condition on the graph: `structure/data_generators/wrappers.py:672-682`. -/
def acceptGraph (a : DynParams K) (g : Graph Str K) : Bool :=
  (g.edges.any (fun e => e.src ∈ intraNodes g) && g.edges.any fun e => e.src ∈ interNodes g) ||
    decide (a.degreeIntra = 0) || decide (a.degreeInter = 0)

/-- The inner loop: `structure/data_generators/wrappers.py:656-683`.  `none`: it has not ended after `fuel` turns.  Otherwise the
value of `g` afterwards, and whether the loop was left without `OverflowError` or `FloatingPointError`. -/
def drawGraph [FloorRing K] (x : StatArgs K) (gs : ℕ → Option (Draws K x.n × InterDraws K)) :
    ℕ → ℕ → Option (Graph Str K) → Option (Except Err (Option (Graph Str K) × Bool))
  | 0, _, _ => none
  | fuel + 1, k, g =>
    match gs k with
    | none => some (.ok (g, false))
    | some r =>
      match generateDynamic x.n x.p x.dyn r.1 r.2 with
      | .error e => some (.error e)
      | .ok g => if acceptGraph x.dyn g then some (.ok (some g, true)) else drawGraph x gs fuel (k + 1) (some g)

/-- `df.loc[first:, labels].reset_index(drop=True)` for a frame with the row labels 0, 1, ... (pandas, external).  Simplification:
a label that is no column (`KeyError`) is left out; here the labels are those of the columns. -/
def DataFrame.loc (F : DataFrame K) (first : ℕ) (labels : List Str) : DataFrame K :=
  ⟨F.rows - first, labels.filterMap fun l => (F.cols.find? fun c => c.1 = l).map fun c => (l, fun t => c.2 (first + t))⟩

/-- `df.abs().max().max() < 1e3`, which is false if there is no value: `structure/data_generators/wrappers.py:701`. -/
def DataFrame.small (F : DataFrame K) : Bool :=
  F.rows ≠ 0 && !F.cols.isEmpty && F.cols.all fun c => (List.range F.rows).all fun t => decide (|c.2 t| < 1000)

/-- The `try` statement in the outer loop: `structure/data_generators/wrappers.py:655-700`.  The new value of `g`, and the data if the
turn goes on. -/
def attempt [FloorRing K] (fuel : ℕ) (x : StatArgs K) (order : Graph Str K → List ℕ) (A : Attempt K x.n) (g : Option (Graph Str K)) :
    Option (Except GenErr (Option (Graph Str K) × Option (DataFrame K))) :=
  match drawGraph x A.graphs fuel 0 g with
  | none => none
  | some (.error e) => some (.error (.ofStructure e))
  | some (.ok (g, false)) => some (.ok (g, none))
  | some (.ok (none, true)) => some (.ok (none, none)) -- does not occur
  | some (.ok (some g, true)) =>
    match generateDataframe g (x.nSamples + statBurnIn x.nSamples) 100 x.semType none A.noise (order g) with
    | .error e => some (.error (.ofData e))
    | .ok F => if A.lost then some (.ok (some g, none))
      else some (.ok (some g, some (F.loc (statBurnIn x.nSamples) (intraNodes g ++ interNodes g))))

/-- After the outer loop: `structure/data_generators/wrappers.py:703-712`. -/
def finish (x : StatArgs K) (trials : ℤ) (g : Option (Graph Str K)) (F : Option (DataFrame K)) : Except GenErr (StatResult K) :=
  match g with
  | none => .error .typeError
  | some g =>
    let names := intraNodes g ++ interNodes g
    if trials ≤ 0 then
      if names.length ≠ x.n * (1 + x.p) then .error .valueError
      else .ok ⟨g, ⟨x.nSamples, names.map fun l => (l, fun _ => 1)⟩, intraNodes g, interNodes g, true⟩
    else
      match F with
      | none => .error .typeError -- does not occur: the loop ends with data or without trials left
      | some F => .ok ⟨g, F, intraNodes g, interNodes g, false⟩

/-- The outer loop, from turn `i` on with `trials` left: `structure/data_generators/wrappers.py:650-702`. -/
def statLoop [FloorRing K] (fuel : ℕ) (x : StatArgs K) (order : Graph Str K → List ℕ) (As : ℕ → Attempt K x.n) (i : ℕ) (trials : ℤ)
    (g : Option (Graph Str K)) : Option (Except GenErr (StatResult K)) :=
  match attempt fuel x order (As i) g with
  | none => none
  | some (.error e) => some (.error e)
  | some (.ok (g, none)) =>
    if trials - 1 ≤ 0 then some (finish x (trials - 1) g none) else statLoop fuel x order As (i + 1) (trials - 1) g
  | some (.ok (g, some F)) =>
    if trials - 1 ≤ 0 then some (finish x (trials - 1) g (some F))
    else if F.small then some (finish x (trials - 1) g (some F))
    else statLoop fuel x order As (i + 1) (trials - 1) g
termination_by trials.toNat
decreasing_by all_goals omega

/-- `gen_stationary_dyn_net_and_df`: `structure/data_generators/wrappers.py:595-712`.  `As i` is what happens by chance in turn `i`;
`order` is `nx.topological_sort`.  `none`: some inner loop has not ended after `fuel` turns. -/
def genStationary [FloorRing K] (fuel : ℕ) (x : StatArgs K) (order : Graph Str K → List ℕ) (As : ℕ → Attempt K x.n) :
    Option (Except GenErr (StatResult K)) :=
  statLoop fuel x order As 0 x.trials none

end

end Verif.Generators
