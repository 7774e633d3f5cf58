import Verif.Notears.Model
import Verif.Str.Basic
import Verif.Transform.Model

/-!
# Model of `causalnex.structure.dynotears`

Uses the learning loop, graphs, optimiser and data of `Verif.Notears.Model` with the same
simplifications.
-/

namespace Verif.Dynotears

open Verif.Notears Verif.Str

/-- Exceptions. -/
inductive Err
  | valueError | keyError | typeError | zeroDivision | outOfFuel
  deriving DecidableEq, Repr

/-- The optional arguments forbidding edges; an edge is `(lag, from, to)`. -/
structure Tabu (N : Type) where
  edges : Option (List (ℕ × N × N)) := none
  parents : Option (List N) := none
  children : Option (List N) := none

/-- The arguments besides the data and the weights of the penalties (which are part of the
`Problem`). -/
structure Params (K N : Type) where
  maxIter : ℕ
  hTol : K
  wThreshold : K
  tabu : Tabu N

/-- `"{var}_lag{l_val}".format(var=var, l_val=l_val)`. -/
def lagName (var : Str) (l : ℕ) : Str := var ++ "_lag".toList ++ natStr l

section
variable {K : Type} [Field K] [LinearOrder K]

/-- A bound for an intra-slice weight: `structure/dynotears.py:217-229`. -/
def boundW (t : Tabu ℕ) (c : ℕ × ℕ) : Bound K :=
  if c.1 = c.2 then (some 0, some 0)
  else if t.edges.any fun te => (0, c.1, c.2) ∈ te then (some 0, some 0)
  else if t.parents.any fun tp => c.1 ∈ tp then (some 0, some 0)
  else if t.children.any fun tc => c.2 ∈ tc then (some 0, some 0)
  else (some 0, none)

/-- A bound for an inter-slice weight of lag `k`: `structure/dynotears.py:236-245`. -/
def boundA (t : Tabu ℕ) (k : ℕ) (c : ℕ × ℕ) : Bound K :=
  if t.edges.any fun te => (k, c.1, c.2) ∈ te then (some 0, some 0)
  else if t.parents.any fun tp => c.1 ∈ tp then (some 0, some 0)
  else if t.children.any fun tc => c.2 ∈ tc then (some 0, some 0)
  else (some 0, none)

/-- `bnds`: `structure/dynotears.py:217-248`. -/
def bounds (t : Tabu ℕ) (d p : ℕ) : List (Bound K) :=
  let bw := (cells d).map (boundW t)
  (bw ++ bw) ++ (List.range p).flatMap fun k =>
    let ba := (cells d).map (boundA t (k + 1))
    ba ++ ba

/-- `w_mat`, the first result of `_reshape_wa`: `structure/dynotears.py:315-318`. -/
def wMat (d : ℕ) (vec : List K) (i j : ℕ) : K := vec.getD (i * d + j) 0 - vec.getD ((d + i) * d + j) 0

/-- `w_tilde[2 * d_vars :].reshape(2 * p_orders, d_vars ** 2)[s::2].reshape(d_vars * p_orders, d_vars)`
at `(r, j)`: `structure/dynotears.py:319-328`. -/
def aPart (d : ℕ) (vec : List K) (s r j : ℕ) : K :=
  let m := r * d + j
  let row := s + 2 * (m / d ^ 2)
  (vec.drop (2 * d * d)).getD (row * d ^ 2 + m % d ^ 2) 0

/-- `a_mat`, the second result of `_reshape_wa`: `structure/dynotears.py:319-329`. -/
def aMat (d : ℕ) (vec : List K) (r j : ℕ) : K := aPart d vec 0 r j - aPart d vec 1 r j

/-- `_matrices_to_structure_model` for a `d × d` array and a `(p d) × d` array:
`structure/dynotears.py:259-298`.  The index into `lag_cols` is always in range. -/
def toGraph (d p : ℕ) (W A : ℕ → ℕ → K) : Graph Str K :=
  let lagCols := (List.range (1 + p * d / d)).flatMap fun l => (List.range d).map fun var => lagName (natStr var) l
  let g := addNodes ⟨[], []⟩ lagCols
  let g := addWeightedEdges "unknown" g <|
    ((List.range d).flatMap fun i => (List.range d).map fun j => (i, j)).filterMap fun c =>
      if W c.1 c.2 ≠ 0 then some (lagCols.getD c.1 [], lagCols.getD c.2 [], W c.1 c.2) else none
  addWeightedEdges "unknown" g <|
    ((List.range (p * d)).flatMap fun i => (List.range d).map fun j => (i, j)).filterMap fun c =>
      if A c.1 c.2 ≠ 0 then some (lagCols.getD (c.1 + d) [], lagCols.getD c.2 [], A c.1 c.2) else none

/-- `_learn_dynamic_structure`, up to `_reshape_wa`: `structure/dynotears.py:379-391`, `471-492`.  The
result is the vector of weights and whether there was a warning. -/
def learnDynamic (P : Problem K) (minimize : Minimizer K) (fuel : ℕ) (X Xlags : Data K)
    (bnds : List (Bound K)) (maxIter : ℕ) (hTol : K) : Except Err (List K × Bool) :=
  if X.rows * X.cols = 0 then .error .valueError
  else if Xlags.rows * Xlags.cols = 0 then .error .valueError
  else if X.rows ≠ Xlags.rows then .error .valueError
  else if Xlags.cols % X.cols ≠ 0 then .error .valueError
  else
    match learnLoop P minimize bnds (2 * (Xlags.cols / X.cols + 1) * X.cols ^ 2) maxIter hTol fuel with
    | none => .error .outOfFuel
    | some s => .ok (s.wEst, s.warned)

/-- `from_numpy_dynamic`: `structure/dynotears.py:162-256`, with the warning. -/
def fromNumpyDynamicW (P : Problem K) (minimize : Minimizer K) (fuel : ℕ) (X Xlags : Data K)
    (a : Params K ℕ) : Except Err (Graph Str K × Bool) :=
  if X.cols = 0 then .error .zeroDivision
  else
    let p := Xlags.cols / X.cols
    match learnDynamic P minimize fuel X Xlags (bounds a.tabu X.cols p) a.maxIter a.hTol with
    | .error e => .error e
    | .ok (vec, warned) =>
      .ok (toGraph X.cols p (fun i j => cutStrict a.wThreshold (wMat X.cols vec i j))
        (fun i j => cutStrict a.wThreshold (aMat X.cols vec i j)), warned)

/-- `from_numpy_dynamic`: `structure/dynotears.py:162-256`. -/
def fromNumpyDynamic (P : Problem K) (minimize : Minimizer K) (fuel : ℕ) (X Xlags : Data K)
    (a : Params K ℕ) : Except Err (Graph Str K) :=
  match fromNumpyDynamicW P minimize fuel X Xlags a with
  | .error e => .error e
  | .ok r => .ok r.1

/-! ### Data frames -/

/-- A dictionary access. -/
def get {α : Type} : Option α → Except Err α
  | none => .error .keyError
  | some a => .ok a

/-- The translation of names: `structure/dynotears.py:105-110`. -/
def translate (cols : List Str) (t : Tabu Str) : Except Err (Tabu ℕ) := do
  let edges ← match t.edges with
    | none => pure none
    | some te => do
      let l ← te.mapM fun e => do
        let u ← get (colIdx cols e.2.1)
        let v ← get (colIdx cols e.2.2)
        pure (e.1, u, v)
      pure (some l)
  let parents ← match t.parents with
    | none => pure none
    | some tp => do
      let l ← tp.mapM fun n => get (colIdx cols n)
      pure (some l)
  let children ← match t.children with
    | none => pure none
    | some tc => do
      let l ← tc.mapM fun n => get (colIdx cols n)
      pure (some l)
  pure { edges := edges, parents := parents, children := children }

/-- `_format_name_from_pandas`: `structure/dynotears.py:148-159`.  Unpacking a list not of length two and
`int` of another string raise `ValueError`. -/
def formatName (cols : List Str) (node : Str) : Except Err Str :=
  match split "_lag".toList node with
  | [idx, lag] =>
    match pyInt idx with
    | none => .error .valueError
    | some i => match idxCol cols i with
      | none => .error .keyError
      | some var => .ok (var ++ "_lag".toList ++ lag)
  | _ => .error .valueError

/-- Rows as an array; all numbers finite (simplification, infinities and `NaN` are not looked at). -/
def toData (cols : ℕ) (rows : List (List K)) : Data K :=
  ⟨rows.length, cols, fun i j => (rows[i]?).bind fun r => r[j]?⟩

/-- The errors of the transformer. -/
def ofTransform : Transform.Err → Err
  | .valueError => .valueError
  | .typeError => .typeError
  | .notFitted => .valueError
  | .keyError => .keyError

/-- `from_pandas_dynamic` after the data was transformed: `structure/dynotears.py:102-145`. -/
def fromArrays (P : Data K → Data K → Problem K) (minimize : Minimizer K) (fuel : ℕ) (cols : List Str) (p : ℕ)
    (X Xlags : Data K) (a : Params K Str) : Except Err (Graph Str K) :=
  match translate cols a.tabu with
  | .error e => .error e
  | .ok tabu =>
    match fromNumpyDynamic (P X Xlags) minimize fuel X Xlags { a with tabu := tabu } with
    | .error e => .error e
    | .ok g => do
      let es ← g.edges.mapM fun e => do
        let u ← formatName cols e.src
        let v ← formatName cols e.dst
        pure (u, v, e.weight)
      pure (addWeightedEdges "learned" (addNodes ⟨[], []⟩
        (cols.flatMap fun var => (List.range (p + 1)).map fun l => lagName var l)) es)

/-- `from_pandas_dynamic`: `structure/dynotears.py:45-145`. -/
def fromPandasDynamic {T : Type} [DecidableEq T] (P : Data K → Data K → Problem K) (minimize : Minimizer K)
    (fuel : ℕ) (numeric : T → Bool) (ts : List (Transform.Entry Str T K)) (p : ℕ) (a : Params K Str) :
    Except Err (Graph Str K) :=
  let s := Transform.fit numeric { p := p } ts false
  match s.2 with
  | .error e => .error (ofTransform e)
  | .ok () =>
    match Transform.transform numeric s.1 ts with
    | .error e => .error (ofTransform e)
    | .ok (.df _ _) => .error .typeError
    | .ok (.arrays X Xlags) =>
      match ts with
      | .frame df :: _ =>
        fromArrays P minimize fuel df.cols p (toData df.cols.length X) (toData (p * df.cols.length) Xlags) a
      | _ => .error .typeError

end

end Verif.Dynotears
