import Verif.Generators.Sem
import Verif.Generators.Topo
import Verif.Mapper.Spec

/-!
# Specification of the data of structural equation models (C55, C56)
-/

namespace Verif.Generators

open Verif.Mapper Verif.Str

section
variable {N : Type} [DecidableEq N] {n : ℕ}

/-- A graph as `networkx` holds it: every node once, at most one edge between two nodes, edges between nodes. -/
structure SemGraph.WF (g : SemGraph N) : Prop where
  nodes : g.nodes.Nodup
  edges : g.pairs.Nodup
  ends : ∀ e ∈ g.pairs, e.1 ∈ g.nodes ∧ e.2 ∈ g.nodes

/-- `np.random.uniform` is at least 0 and below 1. -/
def SemDraws.Uniform (D : SemDraws N n) : Prop := ∀ v r, 0 ≤ D.poisson v r ∧ D.poisson v r < 1

/-- The schema the user gives is one of documented types: `ty v` is the type of the variable `v`. -/
structure Documented (nodes : List N) (schema : Option (List (N × Str))) (defaultType : Str) (ty : N → VarType) : Prop where
  default : ∃ t : VarType, defaultType = t.str ∧ ∀ k, t = .categorical k → k ≠ 0
  given : ∀ v ∈ nodes, ((schema.bind fun s => Dict.get? s v).getD defaultType) = (ty v).str ∧
    ∀ k, ty v = .categorical k → k ≠ 0

/-- The settings are valid for the variables and edges that are there. -/
structure Valid (g : SemGraph N) (ty : N → VarType) (dist : Distributions) : Prop where
  continuous : ∀ v ∈ g.nodes, ty v = .continuous → dist.continuous ∈ knownDistributions
  binary : ∀ v ∈ g.nodes, ty v = .binary → dist.binary ∈ knownDistributions
  count : ∀ v ∈ g.nodes, ty v = .count → 0 ≤ dist.count ∧ dist.count ≤ 1
  categorical : ∀ v ∈ g.nodes, ∀ k, ty v = .categorical k → dist.categorical ∈ knownDistributions

/-- Also for the weights and intercepts. -/
structure ValidLinear (g : SemGraph N) (ty : N → VarType) (dist : Distributions) (intercept : Bool) : Prop extends
    Valid g ty dist where
  weight : ∀ u v, (u, v, none) ∈ g.edges → dist.weight ∈ ["uniform", "gaussian", "normal"]
  intercept : intercept = true → dist.intercept ∈ ["uniform", "gaussian", "normal"]

/-- The noise of a variable is drawn with standard deviation 1 at the roots and `noise_std` elsewhere. -/
noncomputable def noiseOf (g : SemGraph N) (D : SemDraws N n) (noiseStd : ℝ) (distribution : String) (v : N) (c : ℕ) (r : Fin n) : ℝ :=
  let std := if g.preds v = [] then 1 else noiseStd
  if distribution = "student-t" then D.noise distribution 1 v c r * std else D.noise distribution std v c r

/-- `cnt` is the Poisson quantile of `u`, at most 5000. -/
def PoissonQuantile (rate u : ℝ) (cnt : ℕ) : Prop :=
  (∀ j < cnt, poissonCdf rate j ≤ u) ∧ cnt ≤ 5000 ∧ (cnt < 5000 → u < poissonCdf rate cnt)

/-- The number of rows where the column is 1, and where it is 0. -/
noncomputable def ones (x : Col n) : ℕ := ((List.finRange n).filter fun r => x r = 1).length
noncomputable def zeros (x : Col n) : ℕ := ((List.finRange n).filter fun r => x r = 0).length

/-- How the columns `val` of the variable `v` of type `t` come from the means `mean` of its features. -/
def Realises (fmt : N → ℕ → N) (g : SemGraph N) (D : SemDraws N n) (noiseStd : ℝ) (dist : Distributions) (v : N)
    (mean val : N → Col n) : VarType → Prop
  | .continuous => ∀ r, val v r = mean v r + noiseOf g D noiseStd dist.continuous v 0 r
  | .binary =>
    -- 1 above a threshold, which is 0 if at least 5% are above and at least 5% not; otherwise another such that there are at
    -- least 5% of each, unless two rows have the same latent value (C76)
    let latent : Col n := fun r => mean v r + noiseOf g D noiseStd dist.binary v 0 r
    ∃ threshold, (∀ r, val v r = if threshold < latent r then 1 else 0) ∧
      (5 / 100 * (n : ℝ) ≤ ((List.finRange n).filter fun r => 0 < latent r).length →
        ((List.finRange n).filter fun r => 0 < latent r).length ≤ 95 / 100 * (n : ℝ) → threshold = 0) ∧
      (Function.Injective latent → 2 ≤ n → 5 / 100 * ((n : ℝ) - 1) ≤ ones (val v) ∧ 5 / 100 * ((n : ℝ) - 1) ≤ zeros (val v) ∧
        -- if less than 5% are above 0, at least 95% get the label 1; if more than 95%, at most 5% do
        (((List.finRange n).filter fun r => 0 < latent r).length < 5 / 100 * (n : ℝ) → 95 / 100 * ((n : ℝ) - 1) ≤ ones (val v)) ∧
        (95 / 100 * (n : ℝ) < ((List.finRange n).filter fun r => 0 < latent r).length →
          (ones (val v) : ℝ) ≤ 5 / 100 * ((n : ℝ) - 1) + 1))
  | .count =>
    ∃ cnt : Fin n → ℕ, ∀ r, val v r = cnt r ∧ if D.zif v r < dist.count then cnt r = 0 else
      let eta := if g.preds v = [] then mean v r + D.eta v r else mean v r
      PoissonQuantile (if eta < 0 then Real.exp eta else eta) (D.poisson v r) (cnt r)
  | .categorical k =>
    -- 1 for one category, which has the largest latent value
    let latent : ℕ → Col n := fun c r => mean (fmt v c) r + noiseOf g D noiseStd dist.categorical v c r
    ∃ choice : Fin n → ℕ, ∀ r, choice r < k ∧ (∀ c < k, latent c r ≤ latent (choice r) r) ∧
      ∀ c < k, val (fmt v c) r = if c = choice r then 1 else 0

/-- What the type promises about the values. -/
def InType (fmt : N → ℕ → N) (v : N) (val : N → Col n) : VarType → Prop
  | .continuous => True
  | .binary => ∀ r, val v r = 0 ∨ val v r = 1
  | .count => ∀ r, ∃ cnt : ℕ, val v r = cnt
  | .categorical k => ∀ r, ∃ c < k, val (fmt v c) r = 1 ∧ ∀ c' < k, c' ≠ c → val (fmt v c') r = 0

/-- The frame `F` has the features of all variables as columns, each once, and `val f` is the column named `f`. -/
def FrameOf (fmt : N → ℕ → N) (nodes : List N) (ty : N → VarType) (F : SemFrame N n) (val : N → Col n) : Prop :=
  (F.map (·.1)).Nodup ∧ ∀ f c, (f, c) ∈ F ↔ (∃ v ∈ nodes, f ∈ (ty v).features fmt v) ∧ c = val f

/-- The coefficients `W f h` of the feature `f` for the feature `h`: for an edge without weight those that were drawn; the
weight, if both variables have one feature; otherwise the weight for the pair with the smallest number drawn. -/
def Coefficients (fmt : N → ℕ → N) (g : SemGraph N) (D : SemDraws N n) (ty : N → VarType) (W : N → N → ℝ) : Prop :=
  ∀ u v weight, (u, v, weight) ∈ g.edges → ∀ a b f h, ((ty u).features fmt u)[a]? = some f →
    ((ty v).features fmt v)[b]? = some h → W f h = match weight with
      | none => D.weight u v a b
      | some c =>
        if ((ty u).features fmt u).length = 1 ∧ ((ty v).features fmt v).length = 1 then c
        else if ∀ a' < ((ty u).features fmt u).length, ∀ b' < ((ty v).features fmt v).length,
          D.mask u v a b ≤ D.mask u v a' b' then c else 0

/-- `Σ` over the features of the parents of `v`, plus the intercept. -/
noncomputable def structuralMean (fmt : N → ℕ → N) (g : SemGraph N) (ty : N → VarType) (W : N → N → ℝ) (b : N → ℝ) (val : N → Col n)
    (v h : N) (r : Fin n) : ℝ :=
  (((g.preds v).flatMap fun u => (ty u).features fmt u).map fun f => val f r * W f h).sum + b h

end

end Verif.Generators
