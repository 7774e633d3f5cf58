import Verif.Generators.SemProps
import Verif.Mapper.PropsSchema

/-!
# Model of the generators for data of one type (C83, C84)

`causalnex/structure/data_generators/wrappers.py`.  `E` holds what comes from outside: the random numbers, the order of
`nx.topological_sort`, the content of new arrays and the kernel with its draws (`none` is `kernel=None`).
-/

namespace Verif.Generators

open Verif.Mapper Verif.Str

section
variable {N : Type} [DecidableEq N] {n : ℕ} {C : Type}

/-- What comes from outside. -/
structure Outside (N : Type) (n : ℕ) (C : Type) where
  fmt : N → ℕ → N
  types : List Str
  order : List N
  empty : ℕ → Col n
  draws : SemDraws N n
  kernel : Option ((N → ℕ → GpSampler C) × Argsort)

/-- `str(k)` for an integer. -/
def intStr (k : ℤ) : Str := match k with
  | .ofNat k => natStr k
  | .negSucc k => '-' :: natStr (k + 1)

/-- `generate_continuous_dataframe`: `structure/data_generators/wrappers.py:160-209`. -/
noncomputable def continuousFrame (E : Outside N n C) (g : SemGraph N) (distribution : String) (noiseScale : ℝ) (intercept : Bool) :
    Except Err (SemFrame N n) :=
  match E.kernel with
  | none => semGenerator E.fmt E.types E.order E.empty E.draws g none sContinuous noiseScale { continuous := distribution } intercept
  | some (S, argsort) =>
    nonlinearSemGenerator E.fmt E.types E.order E.empty E.draws S argsort g none sContinuous noiseScale { continuous := distribution }

/-- `generate_binary_dataframe`: `structure/data_generators/wrappers.py:212-264`. -/
noncomputable def binaryFrame (E : Outside N n C) (g : SemGraph N) (distribution : String) (noiseScale : ℝ) (intercept : Bool) :
    Except Err (SemFrame N n) :=
  match E.kernel with
  | none => semGenerator E.fmt E.types E.order E.empty E.draws g none sBinary noiseScale { binary := distribution } intercept
  | some (S, argsort) =>
    nonlinearSemGenerator E.fmt E.types E.order E.empty E.draws S argsort g none sBinary noiseScale { binary := distribution }

/-- `generate_count_dataframe`: `structure/data_generators/wrappers.py:267-313` (simplification: the factor is a number). -/
noncomputable def countFrame (E : Outside N n C) (g : SemGraph N) (zeroInflationFactor : ℝ) (intercept : Bool) :
    Except Err (SemFrame N n) :=
  match E.kernel with
  | none => semGenerator E.fmt E.types E.order E.empty E.draws g none sCount 1 { count := zeroInflationFactor } intercept
  | some (S, argsort) =>
    nonlinearSemGenerator E.fmt E.types E.order E.empty E.draws S argsort g none sCount 1 { count := zeroInflationFactor }

/-- `generate_categorical_dataframe`: `structure/data_generators/wrappers.py:316-371`. -/
noncomputable def categoricalFrame (E : Outside N n C) (g : SemGraph N) (distribution : String) (nCategories : ℤ) (noiseScale : ℝ)
    (intercept : Bool) : Except Err (SemFrame N n) :=
  match E.kernel with
  | none => semGenerator E.fmt E.types E.order E.empty E.draws g none ((sCategorical ++ [':']) ++ intStr nCategories) noiseScale
      { categorical := distribution } intercept
  | some (S, argsort) =>
    nonlinearSemGenerator E.fmt E.types E.order E.empty E.draws S argsort g none ((sCategorical ++ [':']) ++ intStr nCategories)
      noiseScale { categorical := distribution }

/-- `df[names].values` as a list of columns (simplification: the names of the columns differ, so that every name selects one
column). -/
def selectCols (F : SemFrame N n) : List N → Except Err (List (Col n))
  | [] => .ok []
  | v :: vs => match Dict.get? F v with
    | none => .error .keyError
    | some c => match selectCols F vs with
      | .error e => .error e
      | .ok l => .ok (c :: l)

/-- `generate_continuous_data`: `structure/data_generators/wrappers.py:49-100`. -/
noncomputable def continuousData (E : Outside N n C) (g : SemGraph N) (distribution : String) (noiseScale : ℝ) (intercept : Bool) :
    Except Err (List (Col n)) :=
  let df := match E.kernel with
    | none => semGenerator E.fmt E.types E.order E.empty E.draws g none sContinuous noiseScale { continuous := distribution } intercept
    | some (S, argsort) =>
      nonlinearSemGenerator E.fmt E.types E.order E.empty E.draws S argsort g none sContinuous noiseScale { continuous := distribution }
  match df with
  | .error e => .error e
  | .ok F => selectCols F g.nodes

/-- `generate_binary_data`: `structure/data_generators/wrappers.py:103-157`. -/
noncomputable def binaryData (E : Outside N n C) (g : SemGraph N) (distribution : String) (noiseScale : ℝ) (intercept : Bool) :
    Except Err (List (Col n)) :=
  let df := match E.kernel with
    | none => semGenerator E.fmt E.types E.order E.empty E.draws g none sBinary noiseScale { binary := distribution } intercept
    | some (S, argsort) =>
      nonlinearSemGenerator E.fmt E.types E.order E.empty E.draws S argsort g none sBinary noiseScale { binary := distribution }
  match df with
  | .error e => .error e
  | .ok F => selectCols F g.nodes

end

end Verif.Generators
