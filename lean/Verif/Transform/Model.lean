import Mathlib.Data.Int.Order.Basic
import Mathlib.Data.List.Sort
import Mathlib.Data.List.Basic

/-!
# Model of `causalnex.structure.transformers.DynamicDataTransformer`

`C` are column names, `K` the numbers, `T` the column types.  A row of a data frame is a function from
column names (so column names are distinct: simplification); after `.values`, a row is a list.
-/

namespace Verif.Transform

/-- Exceptions. -/
inductive Err
  | valueError | typeError | notFitted | keyError
  deriving DecidableEq, Repr

/-- A data frame with its index.  `dtypes` are the types of the columns, `numeric t` below tells
which of them are numbers, `indexInt` whether the type of the index is `int`. -/
structure Frame (C T K : Type) where
  cols : List C
  dtypes : List T
  indexInt : Bool
  index : List ℤ
  rows : List (C → K)

/-- An element of the list given by the user, perhaps not a data frame. -/
inductive Entry (C T K : Type)
  | other
  | frame (t : Frame C T K)

/-- The attributes of a `DynamicDataTransformer`: `structure/transformers.py:54-63`. -/
structure Trans (C : Type) where
  p : ℕ
  columns : Option (List C) := none
  returnDf : Option Bool := none

section
variable {C T K : Type} [DecidableEq C] [DecidableEq T]

/-- The checks of one entry: `structure/transformers.py:178-213`.  `df` is the first entry.
Comparing column indices of different lengths raises `ValueError` (pandas, external), as does the
explicit check. -/
def checkEntry (numeric : T → Bool) (columns : Option (List C)) (df : Frame C T K) :
    Entry C T K → Except Err Unit
  | .other => .error .typeError
  | .frame t =>
    if t.dtypes.any fun d => !numeric d then .error .valueError
    else if df.cols ≠ t.cols ∨ df.dtypes ≠ t.dtypes then .error .valueError
    else if t.index.insertionSort (· ≤ ·) ≠ t.index then .error .valueError
    else if !t.indexInt then .error .typeError
    else match columns with
      | none => .ok ()
      | some cs => if cs.any fun c => c ∉ t.cols then .error .valueError else .ok ()

/-- `_check_input_from_pandas`: `structure/transformers.py:156-213`. -/
def checkInput (numeric : T → Bool) (columns : Option (List C)) (ts : List (Entry C T K)) :
    Except Err Unit :=
  match ts with
  | [] => .error .valueError
  | .other :: _ => .error .typeError
  | .frame df :: _ => ts.forM (checkEntry numeric columns df)

/-- `fit`: `structure/transformers.py:65-93`. -/
def fit (numeric : T → Bool) (s : Trans C) (ts : List (Entry C T K)) (returnDf : Bool) :
    Trans C × Except Err Unit :=
  match checkInput numeric s.columns ts with
  | .error e => (s, .error e)
  | .ok () =>
    match ts with
    | .frame df :: _ => ({ s with columns := some df.cols, returnDf := some returnDf }, .ok ())
    | _ => (s, .error .typeError)

/-- `np.where(np.diff(index) > 1)[0] + 1`, the index of the first element being `i`:
`structure/transformers.py:259-260`. -/
def cutPoints : ℕ → List ℤ → List ℕ
  | i, a :: b :: l => if b - a > 1 then (i + 1) :: cutPoints (i + 1) (b :: l) else cutPoints (i + 1) (b :: l)
  | _, _ => []

/-- `a[start:end]` for nonnegative bounds. -/
def slice {α : Type} (l : List α) (start stop : ℕ) : List α := (l.take stop).drop start

/-- The pieces of one data frame: `structure/transformers.py:259-262`. -/
def cut {α : Type} (index : List ℤ) (values : List α) : List (List α) :=
  let points := [0] ++ cutPoints 0 index ++ [index.length]
  (points.dropLast.zip points.tail).map fun q => slice values q.1 q.2

/-- `_cut_dataframes_on_discontinuity_points`: `structure/transformers.py:215-263`.  The arguments are
the index and the values of each data frame. -/
def cutAll {α : Type} (ts : List (List ℤ × List α)) : List (List α) :=
  ts.flatMap fun t => cut t.1 t.2

/-- `a[start : -k]`: a negative bound counts from the end. -/
def sliceNeg {α : Type} (l : List α) (start k : ℕ) : List α := slice l start (l.length - k)

/-- `np.concatenate(l, axis=1)` of arrays with the same number of rows (numpy, external). -/
def hstack : List (List (List K)) → List (List K)
  | [] => []
  | [a] => a
  | a :: l => List.zipWith (· ++ ·) a (hstack l)

/-- `_convert_realisations_into_dynotears_format`: `structure/transformers.py:265-290`.
`np.concatenate` of no arrays raises `ValueError`. -/
def convert (realisations : List (List (List K))) (p : ℕ) :
    Except Err (List (List K) × List (List K)) :=
  if realisations = [] ∨ p = 0 then .error .valueError
  else
    .ok ((realisations.map fun r => r.drop p).flatten,
      (realisations.map fun r =>
        hstack ((List.range p).map fun i => sliceNeg r (p - i - 1) (i + 1))).flatten)

/-- The names of the columns of the result, `(column, lag)`: `structure/transformers.py:142-154`. -/
def lagNames (columns : List C) (p : ℕ) : List (C × ℕ) :=
  (columns.map fun c => (c, 0)) ++
    (List.range p).flatMap fun l => columns.map fun c => (c, l + 1)

/-- `t[self.columns]`, its index and its values. -/
def select (columns : List C) : Entry C T K → List ℤ × List (List K)
  | .other => ([], [])
  | .frame t => (t.index, t.rows.map fun r => columns.map r)

/-- What `transform` returns: with `return_df` a frame given by its column names and rows, otherwise
the two arrays. -/
inductive Out (C K : Type)
  | df (names : List (C × ℕ)) (rows : List (List K))
  | arrays (X Xlags : List (List K))

/-- `transform`: `structure/transformers.py:95-140`. -/
def transform (numeric : T → Bool) (s : Trans C) (ts : List (Entry C T K)) :
    Except Err (Out C K) :=
  match s.columns with
  | none => .error .notFitted
  | some columns =>
    match checkInput numeric s.columns ts with
    | .error e => .error e
    | .ok () =>
      match convert (cutAll (ts.map (select columns))) s.p with
      | .error e => .error e
      | .ok (X, Xlags) =>
        if s.returnDf = some true then
          .ok (.df (lagNames columns s.p) (List.zipWith (· ++ ·) X Xlags))
        else .ok (.arrays X Xlags)

end

end Verif.Transform
