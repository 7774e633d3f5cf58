import Verif.Notears.Model
import Verif.Str.Basic
import Mathlib.Algebra.Order.Ring.Rat
import Mathlib.Data.List.Sort
import Mathlib.Data.List.Dedup

/-!
# Model of the preprocessing of `structure/pytorch/notears.py`

Data are rational numbers (finite floats are; `NaN` and infinities are rejected by `check_array` and not represented).  The
scikit-learn encoders are modelled from their documentation: the categories are the sorted different values of the column.
-/

namespace Verif.Pytorch

open Verif.Str

/-- Exceptions; `outOfFuel` means: not finished within the number of steps given to the model. -/
inductive Err
  | valueError | keyError | indexError | zeroDivision | notImplemented | outOfFuel
  deriving DecidableEq, Repr

/-- The keys of `dist_type_aliases`: `structure/pytorch/dist_type/__init__.py:39-45`. -/
inductive Alias
  | cont | bin | poiss | cat | ord
  deriving DecidableEq, Repr

/-- A two-dimensional array of numbers: the number of columns and the rows. -/
structure Frame where
  cols : ℕ
  rows : List (List ℚ)
  deriving DecidableEq

/-- `X[:, idx]`. -/
def Frame.column (X : Frame) (idx : ℕ) : List ℚ := X.rows.map fun r => r.getD idx 0

/-- A distribution type object after fitting. -/
inductive Enc
  | cont (idx : ℕ)
  | bin (idx : ℕ)
  | poiss (idx : ℕ)
  | cat (idx : ℕ) (group : List ℕ) (cats : List ℚ)
  | ord (idx : ℕ) (cats : List ℚ) (counts : List ℕ)
  deriving DecidableEq

/-- The sorted different values (`np.unique`, `categories="auto"`). -/
def categories (l : List ℚ) : List ℚ := (l.insertionSort (· ≤ ·)).dedup

/-- `OneHotEncoder.transform` of one value. -/
def oneHot (cats : List ℚ) (v : ℚ) : List ℚ := cats.map fun c => if v = c then 1 else 0

/-- One row of the expanded data: `dist_type/categorical.py:97-102`, `dist_type/_base.py:215-227`. -/
def expandRow (idx : ℕ) (cats : List ℚ) (row : List ℚ) : List ℚ :=
  let e := oneHot cats (row.getD idx 0)
  row.set idx (e.headD 0) ++ e.tail

/-- One row with the code of an ordinal value: `dist_type/ordinal.py:78`. -/
def encodeRow (idx : ℕ) (cats : List ℚ) (row : List ℚ) : List ℚ := row.set idx (cats.idxOf (row.getD idx 0) : ℚ)

/-- `preprocess_X(X, fit_transform=True)`: `dist_type/_base.py:75-94`, `poisson.py:42-62`, `categorical.py:67-115`,
`ordinal.py:50-92`. -/
def fitType (a : Alias) (idx : ℕ) (X : Frame) : Except Err (Enc × Frame) :=
  match a with
  | .cont => .ok (.cont idx, X)
  | .bin => .ok (.bin idx, X)
  | .poiss => if (X.column idx).any (· < 0) then .error .valueError else .ok (.poiss idx, X)
  | .cat =>
    let cats := categories (X.column idx)
    let n := cats.length - 1
    .ok (.cat idx (idx :: List.range' X.cols n) cats, ⟨X.cols + n, X.rows.map (expandRow idx cats)⟩)
  | .ord =>
    let cats := categories (X.column idx)
    .ok (.ord idx cats (cats.map fun c => (X.column idx).count c), ⟨X.cols, X.rows.map (encodeRow idx cats)⟩)

/-- `preprocess_X(X, fit_transform=False)`; the encoders reject values they have not seen (`ValueError`). -/
def transformType (e : Enc) (X : Frame) : Except Err Frame :=
  match e with
  | .cont _ => .ok X
  | .bin _ => .ok X
  | .poiss idx => if (X.column idx).any (· < 0) then .error .valueError else .ok X
  | .cat idx _ cats =>
    if (X.column idx).all (· ∈ cats) then .ok ⟨X.cols + (cats.length - 1), X.rows.map (expandRow idx cats)⟩
    else .error .valueError
  | .ord idx cats _ =>
    if (X.column idx).all (· ∈ cats) then .ok ⟨X.cols, X.rows.map (encodeRow idx cats)⟩ else .error .valueError

/-- All types in turn, without fitting: `structure/pytorch/core.py:200-201`. -/
def transformAll : List Enc → Frame → Except Err Frame
  | [], X => .ok X
  | e :: es, X => (transformType e X).bind (transformAll es)

/-- `itertools.permutations(group, 2)`: ordered pairs at different positions. -/
def permPairs (g : List ℕ) : List (ℕ × ℕ) :=
  (g.zipIdx).flatMap fun a => ((g.zipIdx).filter fun b => b.2 ≠ a.2).map fun b => (a.1, b.1)

/-- `update_tabu_edges` with `tabu_idx_group=True`: `dist_type/_base.py:230-278`. -/
def updateTabuEdges (group : List ℕ) (te : Option (List (ℕ × ℕ))) : Option (List (ℕ × ℕ)) :=
  let te := te.getD []
  let orig := group.headD 0
  let new := te.flatMap fun e =>
    if e.1 = orig then group.tail.map fun k => (k, e.2)
    else if e.2 = orig then group.tail.map fun k => (e.1, k)
    else []
  some (te ++ new ++ permPairs group)

/-- `update_tabu_nodes`: `dist_type/_base.py:281-310`. -/
def updateTabuNodes (group : List ℕ) (tn : Option (List ℕ)) : Option (List ℕ) :=
  tn.map fun tn => tn ++ tn.flatMap fun i => if i = group.headD 0 then group.tail else []

/-- `preprocess_tabu_edges`, `preprocess_tabu_nodes` of one type: `dist_type/_base.py:97-122`,
`dist_type/categorical.py:117-143`. -/
def updateTabu (e : Enc) (t : Notears.Tabu ℕ) : Notears.Tabu ℕ :=
  match e with
  | .cat _ group _ =>
    { edges := updateTabuEdges group t.edges, parents := updateTabuNodes group t.parents,
      children := updateTabuNodes group t.children }
  | _ => t

/-- What the preprocessing produces. -/
structure Prep where
  encs : List Enc
  data : Frame
  tabu : Notears.Tabu ℕ

/-- The loop over the distribution types: `structure/pytorch/notears.py:142-148`. -/
def prepare : List (ℕ × Alias) → Frame → Notears.Tabu ℕ → Except Err Prep
  | [], X, t => .ok ⟨[], X, t⟩
  | (idx, a) :: ts, X, t =>
    match fitType a idx X with
    | .error e => .error e
    | .ok (enc, X) =>
      match prepare ts X (updateTabu enc t) with
      | .error e => .error e
      | .ok p => .ok { p with encs := enc :: p.encs }

/-- The checks and the preprocessing: `structure/pytorch/notears.py:115-150`.  The schema is a dictionary from columns to
aliases. -/
def prepareChecked (X : Frame) (schema : Option (List (ℕ × Alias))) (t : Notears.Tabu ℕ) : Except Err Prep :=
  if X.rows.length * X.cols = 0 then .error .valueError
  else
    match schema with
    | none => prepare ((List.range X.cols).map fun i => (i, .cont)) X t
    | some s =>
      if (List.range X.cols).all (fun i => i ∈ s.map Prod.fst) && (s.map Prod.fst).all (fun i => i < X.cols) then
        prepare s X t
      else .error .valueError

/-! ### Names -/

/-- `make_node_name`: `dist_type/categorical.py:265-281`. -/
def makeNodeName (col : Str) (m : ℕ) : Str := if m = 0 then col else col ++ natStr m

/-- An index-to-name dictionary as a function. -/
abbrev Names := ℕ → Option Str

/-- `update_idx_col`: `dist_type/categorical.py:283-297`, `dist_type/_base.py:125-135`. -/
def updateNames (e : Enc) (names : Names) : Except Err Names :=
  match e with
  | .cat _ group _ =>
    match names (group.headD 0) with
    | none => .error .keyError
    | some col => .ok fun i => if i ∈ group then some (makeNodeName col (group.idxOf i)) else names i
  | _ => .ok names

/-- The names after all types in some order: `structure/pytorch/notears.py:346-352`. -/
def updateAllNames : List Enc → Names → Except Err Names
  | [], names => .ok names
  | e :: es, names => (updateNames e names).bind (updateAllNames es)

end Verif.Pytorch
