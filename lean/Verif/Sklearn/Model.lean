import Verif.Pytorch.LearnPandas
import Verif.Pytorch.Reconstruct

/-!
# Model of the scikit-learn wrappers `DAGRegressor` and `DAGClassifier` (C65, C66, C67)

Data are finite numbers with numeric types, the rows of `X` and `y` have the same index (simplification: `pd.concat` joins rows by
index), names are strings and the name of the target is not that of a feature. Objects the caller shares with the estimator (the lists
and dictionaries given to the constructor, the data) live in a heap, because `fit` must not change them. A `fit` that raises can leave
some attributes changed; of an estimator without a graph these are not recorded, as the next successful `fit` sets all of them.
-/

namespace Verif.Sklearn

open Verif.Str Verif.Pytorch
open Verif.Notears (Tabu Minimizer colIdx)

/-- What is not modelled: the optimiser, the random start, the order of a set and of the edges, numpy's standard deviation; and the number of rounds
the model follows the learning. -/
structure Ext where
  minimize : Minimizer ℝ
  init : ℕ → ℝ
  fuel : ℕ
  order : Visit
  std : List ℚ → ℚ

/-- The mutable objects, by type; a reference is a position. -/
structure Heap where
  lists : List (List Str)
  schemas : List (List (Str × Alias))
  tables : List (List (List ℚ))
  series : List (List ℚ)

/-- The arguments of the constructor: `structure/pytorch/sklearn/_base.py:64-80`, `155-171`. `schema` and `tabuParents` are references;
`maxIter` and `clamp` stand for `kwargs`. -/
structure Params where
  schema : Option ℕ := none
  alpha : ℝ := 0
  beta : ℝ := 0
  fitIntercept : Bool := true
  hidden : Option (List ℕ) := none
  threshold : ℝ := 0
  tabuEdges : Option (List (Str × Str)) := none
  tabuParents : Option ℕ := none
  tabuChildren : Option (List Str) := none
  dependentTarget : Bool := true
  enforceDag : Bool := false
  standardize : Bool := false
  maxIter : ℕ := 100
  clamp : ℝ := 1 / 100

/-- What `fit` leaves in the estimator; `ready` tells that `_ss_X` has been fitted. -/
structure Fit where
  contIdx : List ℕ
  ssX : List (ℚ × ℚ)
  ssY : Option (ℚ × ℚ)
  features : List Str
  target : Str
  graph : Learned Str
  ready : Bool

/-- An estimator. -/
structure Est where
  params : Params
  targetType : Option Alias
  fitted : Option Fit

/-- The constructor; `supported` is `_supported_types`: `structure/pytorch/sklearn/_base.py:144-171`. -/
def newEst (supported : List Alias) (p : Params) (targetType : Option Alias) : Except Err Est :=
  match targetType with
  | none => .ok ⟨p, none, none⟩
  | some a => if a ∈ supported then .ok ⟨p, some a, none⟩ else .error .notImplemented

/-- `DAGRegressor._supported_types`: `structure/pytorch/sklearn/reg.py:73`. -/
def regTypes : List Alias := [.cont, .poiss]

/-- `DAGClassifier._supported_types`: `structure/pytorch/sklearn/clf.py:76`. -/
def clfTypes : List Alias := [.ord, .bin, .cat]

/-! ### Fitting -/

/-- `d[key] = value` for a dictionary. -/
def dictSet (l : List (Str × Alias)) (k : Str) (a : Alias) : List (Str × Alias) :=
  if k ∈ l.map Prod.fst then l.map fun p => if p.1 = k then (k, a) else p else l ++ [(k, a)]

/-- `"__target"`. -/
def defaultTarget : Str := ['_', '_', 't', 'a', 'r', 'g', 'e', 't']

/-- `y.name or "__target"`: `structure/pytorch/sklearn/_base.py:185`. -/
def targetName : Option Str → Str
  | some (c :: cs) => c :: cs
  | _ => defaultTarget

/-- `copy.deepcopy(self.dist_type_schema) or {col: "cont" ...}`: a new dictionary: `structure/pytorch/sklearn/_base.py:189-191`. -/
def copySchema (h : Heap) (r : Option ℕ) (cols : List Str) : Heap × ℕ :=
  let default := cols.map fun c => (c, Alias.cont)
  let value := match r with
    | none => default
    | some r => match h.schemas.getD r [] with
      | [] => default
      | l => l
  ({ h with schemas := h.schemas ++ [value] }, h.schemas.length)

/-- The mean and the scale of a column: `StandardScaler.fit` (scikit-learn, external); a scale of zero becomes one. -/
def scalerFit (std : List ℚ → ℚ) (col : List ℚ) : ℚ × ℚ := (col.sum / col.length, if std col = 0 then 1 else std col)

/-- `StandardScaler.transform` of one value. -/
def scaleValue (p : ℚ × ℚ) (v : ℚ) : ℚ := (v - p.1) / p.2

/-- Assignment of scaled values to some columns of a row. -/
def scaleRow (cast : ℚ → ℚ) (idxs : List ℕ) (ss : List (ℚ × ℚ)) (row : List ℚ) : List ℚ :=
  (idxs.zip ss).foldl (fun r x => r.set x.1 (cast (scaleValue x.2 (row.getD x.1 0)))) row

/-- A column with its position if the type is continuous. -/
def contColumn (cols : List Str) (p : Str × Alias) : Except Err (List ℕ) :=
  if p.2 = .cont then
    match colIdx cols p.1 with
    | none => .error .keyError
    | some i => .ok [i]
  else .ok []

/-- The positions of the continuous columns: `structure/pytorch/sklearn/_base.py:195-199`. -/
def contColumns (cols : List Str) (schema : List (Str × Alias)) : Except Err (List ℕ) :=
  (schema.mapM (contColumn cols)).map List.flatten

/-- What the standardisation step produces: references to the data to use, and the scalers. -/
structure Scaled where
  heap : Heap
  x : ℕ
  y : ℕ
  contIdx : List ℕ
  ssX : List (ℚ × ℚ)
  ssY : Option (ℚ × ℚ)

/-- The standardisation: `structure/pytorch/sklearn/_base.py:193-212`. `X.copy()` and `y.copy()` are new objects; `StandardScaler` rejects data
without columns. -/
def standardizeStep (std : List ℚ → ℚ) (on : Bool) (targetType : Option Alias) (h : Heap) (schema : List (Str × Alias))
    (cols : List Str) (x y : ℕ) : Except Err Scaled :=
  if on then
    match contColumns cols schema with
    | .error e => .error e
    | .ok idxs =>
      if idxs = [] then .error .valueError
      else
        let X := h.tables.getD x []
        let ss := idxs.map fun i => scalerFit std (X.map fun r => r.getD i 0)
        let x' := h.tables.length
        let h := { h with tables := h.tables ++ [X] }
        let h := { h with tables := h.tables.set x' (X.map (scaleRow id idxs ss)) }
        if targetType = some .cont then
          let Y := h.series.getD y []
          let s := scalerFit std Y
          let y' := h.series.length
          let h := { h with series := h.series ++ [Y] }
          let h := { h with series := h.series.set y' (Y.map (scaleValue s)) }
          .ok ⟨h, x', y', idxs, ss, some s⟩
        else .ok ⟨h, x', y, idxs, ss, none⟩
  else .ok ⟨h, x, y, [], [], none⟩

/-- `tabu_parent_nodes` with the target: a copy of the caller's list: `structure/pytorch/sklearn/_base.py:225-231`. -/
def tabuParentsFor (h : Heap) (r : Option ℕ) (dependent : Bool) (target : Str) : Heap × Option ℕ :=
  match r with
  | none => if dependent then ({ h with lists := h.lists ++ [[target]] }, some h.lists.length) else (h, none)
  | some r =>
    let l := h.lists.getD r []
    let r' := h.lists.length
    let h := { h with lists := h.lists ++ [l] }
    if dependent ∧ target ∉ l then ({ h with lists := h.lists.set r' (l ++ [target]) }, some r') else (h, some r')

/-- Directed cycles. -/
def HasCycle (es : List (LEdge Str)) : Prop := ∃ u, Relation.TransGen (fun a b => ∃ e ∈ es, e.src = a ∧ e.dst = b) u u

open Classical in
/-- `min(self.edges(data="weight"), key=lambda x: abs(x[2]))`: the first of the edges of smallest absolute weight:
`structure/structuremodel.py:302`. -/
noncomputable def smallest (es : List (LEdge Str)) : Option (LEdge Str) := es.find? fun e => decide (∀ e' ∈ es, |e.weight| ≤ |e'.weight|)

open Classical in
/-- `threshold_till_dag`; the list is in the order in which the edges are iterated: `structure/structuremodel.py:296-303`. -/
noncomputable def tillDag : ℕ → List (LEdge Str) → List (LEdge Str)
  | 0, es => es
  | n + 1, es =>
    if HasCycle es then
      match smallest es with
      | none => es
      | some m => tillDag n (es.filter fun e => ¬ (e.src = m.src ∧ e.dst = m.dst))
    else es

/-- The arguments of `fit`: references to the data, the names. -/
structure Call where
  cols : List Str
  x : ℕ
  y : ℕ
  yname : Option Str

/-- The call of `from_pandas`: `structure/pytorch/sklearn/_base.py:222-246`. -/
noncomputable def learnGraph (ext : Ext) (p : Params) (h : Heap) (schema : List (Str × Alias)) (tabuParents : Option ℕ) (cols : List Str)
    (x y : ℕ) (target : Str) : Except Err (Learned Str) :=
  fromPandas ext.minimize ext.init ext.fuel ext.order
    ⟨cols ++ [target], (cols ++ [target]).map fun _ => true, List.zipWith (fun r v => r ++ [v]) (h.tables.getD x []) (h.series.getD y [])⟩
    { schema := some schema, lasso := p.alpha, ridge := p.beta, useBias := p.fitIntercept, hidden := p.hidden,
      wThreshold := some p.threshold, maxIter := p.maxIter, clamp := p.clamp,
      tabu := ⟨p.tabuEdges, tabuParents.map fun r => h.lists.getD r [], p.tabuChildren⟩ }

/-- A change of the attributes of an estimator that has a graph. -/
def Est.update (e : Est) (F : Fit → Fit) : Est := { e with fitted := e.fitted.map F }

/-- The attributes after the standardisation raised: if all columns were found, `continuous_col_idxs` is empty and `_ss_X` a new scaler:
`structure/pytorch/sklearn/_base.py:193-206`. -/
def afterScaling (cols : List Str) (schema : List (Str × Alias)) (f : Fit) : Fit :=
  match contColumns cols schema with
  | .error _ => f
  | .ok idxs => { f with contIdx := idxs, ssX := [], ready := false }

/-- The attributes set before the graph is learned: `structure/pytorch/sklearn/_base.py:195-220`. -/
def beforeLearning (on : Bool) (contIdx : List ℕ) (ssX : List (ℚ × ℚ)) (ssY : Option (ℚ × ℚ)) (cols : List Str) (target : Str) (f : Fit) :
    Fit :=
  let f := if on then { f with contIdx := contIdx, ssX := ssX, ready := true } else f
  let f := match ssY with
    | none => f
    | some s => { f with ssY := some s }
  { f with features := cols, target := target }

/-- `DAGBase.fit`: `structure/pytorch/sklearn/_base.py:173-252`. -/
noncomputable def baseFit (ext : Ext) (e : Est) (h : Heap) (c : Call) : Heap × Est × Option Err :=
  if (h.tables.getD c.x []).length = 0 ∨ c.cols.length = 0 ∨ (h.series.getD c.y []).length ≠ (h.tables.getD c.x []).length then
    (h, e, some .valueError)
  else
    let target := targetName c.yname
    let (h, s) := copySchema h e.params.schema c.cols
    match standardizeStep ext.std e.params.standardize e.targetType h (h.schemas.getD s []) c.cols c.x c.y with
    | .error err => (h, e.update (afterScaling c.cols (h.schemas.getD s [])), some err)
    | .ok sc =>
      let e' := e.update (beforeLearning e.params.standardize sc.contIdx sc.ssX sc.ssY c.cols target)
      match e.targetType with
      | none => (sc.heap, e', some .keyError)
      | some a =>
        let h := { sc.heap with schemas := sc.heap.schemas.set s (dictSet (sc.heap.schemas.getD s []) target a) }
        let (h, tp) := tabuParentsFor h e.params.tabuParents e.params.dependentTarget target
        match learnGraph ext e.params h (h.schemas.getD s []) tp c.cols sc.x sc.y target with
        | .error err => (h, e', some err)
        | .ok g =>
          let g := if e.params.enforceDag then { g with edges := tillDag g.edges.length g.edges } else g
          (h, { e with fitted := some ⟨sc.contIdx, sc.ssX, sc.ssY, c.cols, target, g, true⟩ }, none)

/-- `DAGRegressor.fit`: `structure/pytorch/sklearn/reg.py:75-94`. -/
noncomputable def regFit (ext : Ext) (e : Est) (h : Heap) (c : Call) : Heap × Est × Option Err :=
  baseFit ext { e with targetType := some (e.targetType.getD .cont) } h c

/-- A classifier with labels from `L`. -/
structure Clf (L : Type) where
  est : Est
  classes : List L

/-- `LabelEncoder.classes_`: the sorted different labels. -/
def labelClasses {L : Type} [LinearOrder L] (y : List L) : List L := (y.insertionSort (· ≤ ·)).dedup

/-- The type of the target of a classifier: the given one, or the one chosen at the first `fit`: `structure/pytorch/sklearn/clf.py:111-113`. -/
def clfType (t : Option Alias) (n : ℕ) : Alias := t.getD (if n > 2 then .cat else .bin)

/-- `DAGClassifier.fit` for labels `y`: `structure/pytorch/sklearn/clf.py:79-117`.  Simplification: the check of the labels is not
modelled, and the codes that `y[:] = ...` puts in the place of the labels are numbers (in an array of strings numpy would keep them as
strings, which fitting then rejects). -/
noncomputable def clfFit {L : Type} [LinearOrder L] (ext : Ext) (k : Clf L) (h : Heap) (cols : List Str) (x : ℕ) (yname : Option Str)
    (y : List L) : Heap × Clf L × Option Err :=
  let classes := labelClasses y
  if classes = [] then (h, { k with classes := classes }, some .indexError)
  else if classes.length < 2 then (h, { k with classes := classes }, some .valueError)
  else
    let h := { h with series := h.series ++ [y.map fun v => (classes.idxOf v : ℚ)] }
    let e := { k.est with targetType := some (clfType k.est.targetType classes.length) }
    let r := baseFit ext e h ⟨cols, x, h.series.length - 1, yname⟩
    (r.1, ⟨r.2.1, classes⟩, r.2.2)

/-! ### Prediction -/

/-- The fitted type for the link functions. -/
noncomputable def encFitted : Enc → Fitted
  | .cont i => .cont i
  | .bin i => .bin i
  | .poiss i => .poiss i
  | .cat _ g _ => .cat g
  | .ord i _ counts => .ord i (logCumOdds counts)

/-- One row of the reconstruction: `structure/pytorch/core.py:203-215`. -/
noncomputable def reconstructRow (a : Arch) (es : List Enc) (w : List ℝ) (r : List ℚ) : Except Err (List ℝ) :=
  match inverseLinks (es.map encFitted) ((List.range a.d).map (forward a (a.net w) (realRow r))) with
  | none => .error .indexError
  | some out => .ok out

/-- `reconstruct_data`: `structure/pytorch/core.py:187-215`. -/
noncomputable def reconstructData (a : Arch) (es : List Enc) (w : List ℝ) (X : Frame) : Except Err (List (List ℝ)) :=
  match transformAll es X with
  | .error e => .error e
  | .ok Z => Z.rows.mapM (reconstructRow a es w)

/-- Conversion to an integer, as in an assignment to an array of integers. -/
def truncate (q : ℚ) : ℚ := if q < 0 then (⌈q⌉ : ℚ) else (⌊q⌋ : ℚ)

/-- `get_columns` of a row; no columns are an `IndexError`. -/
def readColumns (t : Fitted) (out : List ℝ) : Except Err (List ℝ) :=
  match getColumns t out with
  | none => .error .indexError
  | some v => .ok v

/-- `DAGBase.predict` for an array with the same number of columns as in the last call of `fit` that got to the learning; `isInt` tells
that its type is an integer type: `structure/pytorch/sklearn/_base.py:254-290`. A scaler that has not been fitted raises `NotFittedError`,
which is a `ValueError`. The result has a list for every row. -/
noncomputable def basePredict (e : Est) (isInt : Bool) (X : List (List ℚ)) : Except Err (List (List ℝ)) :=
  match e.fitted with
  | none => .error .valueError
  | some f =>
    if e.params.standardize && !f.ready then .error .valueError
    else
      let X := if e.params.standardize then X.map (scaleRow (if isInt then truncate else id) f.contIdx f.ssX) else X
      let X := X.map fun r => r ++ [0]
      match reconstructData f.graph.arch f.graph.encs f.graph.params ⟨f.features.length + 1, X⟩ with
      | .error err => .error err
      | .ok out =>
        match f.graph.distType f.target with
        | none => .error .keyError
        | some t =>
          match out.mapM (readColumns (encFitted t)) with
          | .error err => .error err
          | .ok ys =>
            match e.params.standardize, f.ssY with
            | true, some s => .ok (ys.map fun v => v.map fun a => a * (s.2 : ℝ) + (s.1 : ℝ))
            | _, _ => .ok ys

/-- Whether `get_columns` gives a one-dimensional array. -/
def oneDim : Option Enc → Bool
  | some (.cat _ _ _) => false
  | some (.ord _ _ _) => false
  | _ => true

/-- `[1 - p, p]` for a single probability: `structure/pytorch/sklearn/clf.py:150-151`. -/
noncomputable def twoColumns (v : List ℝ) : List ℝ := [1 - v.getD 0 0, v.getD 0 0]

/-- `predict_proba`: `structure/pytorch/sklearn/clf.py:140-152`. -/
noncomputable def predictProba {L : Type} (k : Clf L) (isInt : Bool) (X : List (List ℚ)) : Except Err (List (List ℝ)) :=
  match basePredict k.est isInt X with
  | .error err => .error err
  | .ok ys => if oneDim (k.est.fitted.bind fun f => f.graph.distType f.target) then .ok (ys.map twoColumns) else .ok ys

/-- numpy's `round`: to the nearest integer, ties to the even one. -/
noncomputable def roundEven (x : ℝ) : ℤ :=
  if Int.fract x < 1 / 2 then ⌊x⌋ else if 1 / 2 < Int.fract x then ⌊x⌋ + 1 else if Even ⌊x⌋ then ⌊x⌋ else ⌊x⌋ + 1

/-- The index of the class for a row of probabilities: `structure/pytorch/sklearn/clf.py:129-136`. -/
noncomputable def classIndex (nClasses : ℕ) (probs : List ℝ) : ℕ :=
  if nClasses = 2 then (roundEven (probs.getD 1 0)).toNat else argmax probs

/-- `classes_[index]`. -/
noncomputable def classOf {L : Type} (classes : List L) (probs : List ℝ) : Except Err L :=
  match classes[classIndex classes.length probs]? with
  | none => .error .indexError
  | some c => .ok c

/-- `DAGClassifier.predict`: `structure/pytorch/sklearn/clf.py:119-138`. -/
noncomputable def clfPredict {L : Type} (k : Clf L) (isInt : Bool) (X : List (List ℚ)) : Except Err (List L) :=
  match predictProba k isInt X with
  | .error err => .error err
  | .ok ps => ps.mapM (classOf k.classes)

/-! ### Coefficients -/

/-- `edges[i] = w` for a series: a new label is added at the end. -/
noncomputable def seriesSet (l : List (Str × ℝ)) (i : Str) (w : ℝ) : List (Str × ℝ) :=
  if i ∈ l.map Prod.fst then l.map fun p => if p.1 = i then (i, w) else p else l ++ [(i, w)]

/-- `get_edges_to_node`; `value` picks the weight or the mean effect: `structure/pytorch/sklearn/_base.py:292-320`. Missing values, here zero
from the start, are filled with zeros at the end. -/
noncomputable def edgesToNode (f : Fit) (value : LEdge Str → ℝ) (name : Str) : List (Str × ℝ) :=
  f.graph.edges.foldl (fun l e => if e.dst = name then seriesSet l e.src (value e) else l) (f.features.map fun c => (c, 0))

/-- `feature_importances_` of the base class: `structure/pytorch/sklearn/_base.py:322-330`. -/
noncomputable def importances (f : Fit) : List ℝ := (edgesToNode f LEdge.weight f.target).map Prod.snd

/-- `coef_` of the base class: `structure/pytorch/sklearn/_base.py:332-340`. -/
noncomputable def coef (f : Fit) : List ℝ := (edgesToNode f LEdge.meanEffect f.target).map Prod.snd

/-- `intercept_` of the base class: `structure/pytorch/sklearn/_base.py:342-346`; an unknown node is a `KeyError`. -/
noncomputable def interceptOf (f : Fit) (node : Str) : Except Err ℝ :=
  if node ∈ f.graph.nodes then .ok ((f.graph.bias node).getD 0) else .error .keyError

/-- The rows of `feature_importances_` or `coef_` of a classifier, by target node: `structure/pytorch/sklearn/clf.py:154-212`; `np.vstack`
rejects rows of different lengths. -/
noncomputable def clfRows (f : Fit) (nClasses : ℕ) (value : LEdge Str → ℝ) : Except Err (List (List ℝ)) :=
  if nClasses = 2 then .ok [(edgesToNode f value f.target).map Prod.snd]
  else
    let rows := (List.range nClasses).map fun m => (edgesToNode f value (makeNodeName f.target m)).map Prod.snd
    if rows.all fun r => r.length = (rows.headD []).length then .ok rows else .error .valueError

/-- `intercept_` of a classifier: `structure/pytorch/sklearn/clf.py:214-234`. -/
noncomputable def clfIntercept (f : Fit) (nClasses : ℕ) : Except Err (List ℝ) :=
  if nClasses = 2 then (interceptOf f f.target).map fun b => [b]
  else (List.range nClasses).mapM fun m => interceptOf f (makeNodeName f.target m)

end Verif.Sklearn
