import Verif.Network.Spec
import Verif.Str.Basic
import Verif.Str.Dict
import Mathlib.Data.Char
import Mathlib.Data.List.Lex
import Mathlib.Algebra.Order.Field.Basic

/-!
# Model of `causalnex.evaluation`

Node names are strings, compared character by character.  `metrics.roc_curve`, `metrics.auc` and
`metrics.classification_report` (scikit-learn, external) are modelled from their documentation.
-/

namespace Verif.Evaluation

open Verif.Network Verif.Str

/-- A data frame as a matrix with labelled columns; labels may be repeated. -/
structure Frame (L C : Type) where
  cols : List L
  rows : List (List C)

section
variable {L C S K : Type} [LinearOrder L] [LinearOrder S]

/-- `frame[ls]`: for every label all columns with that label (pandas, external). -/
def Frame.select (F : Frame L C) (ls : List L) : Frame L C :=
  ⟨ls.flatMap fun l => F.cols.filter (· = l),
    F.rows.map fun r => ls.flatMap fun l => ((F.cols.zip r).filter (·.1 = l)).map (·.2)⟩

/-- `frame[sorted(frame.columns)]`: `evaluation/evaluation.py:50,104`. -/
def Frame.sorted (F : Frame L C) : Frame L C := F.select (F.cols.insertionSort (· ≤ ·))

/-- `pd.get_dummies(column)`: one column for each value, in increasing order; nulls have no column
(pandas, external). -/
def getDummies (column : List (Option S)) : Frame S ℕ :=
  let levels := (column.filterMap id).dedup.insertionSort (· ≤ ·)
  ⟨levels, column.map fun c => levels.map fun l => if c = some l then 1 else 0⟩

/-- The loop that adds columns for the states that do not occur: `evaluation/evaluation.py:45-47`. -/
def addMissing : List S → Frame S ℕ → Frame S ℕ
  | [], F => F
  | d :: ds, F =>
    addMissing ds (if d ∈ F.cols then F else ⟨F.cols ++ [d], F.rows.map fun r => r ++ [0]⟩)

/-- `_build_ground_truth`: `evaluation/evaluation.py:38-50`.  `order` is the iteration order of the set
`bn.node_states[node]`. -/
def groundTruth (order : List S) (column : List (Option S)) : Frame S ℕ :=
  (addMissing order (getDummies column)).sorted

/-- `x.lstrip(chars)`: drops leading characters that occur in `chars`. -/
def lstrip (x chars : Str) : Str := x.dropWhile (· ∈ chars)

/-- `"{n}_{s}".format(n=node, s=state)`; `str` is Python's `str`. -/
def fmtName (str : S → Str) (node : Str) (s : S) : Str := node ++ '_' :: str s

/-- The predicted probabilities with renamed and sorted columns: `evaluation/evaluation.py:103-104`. -/
def renamed (node : Str) (predictions : DF Str S) : Frame Str (Option S) :=
  Frame.sorted ⟨predictions.cols.map fun x => lstrip x (node ++ ['_']),
    predictions.rows.map fun r => predictions.cols.map r⟩

variable [Field K] [LinearOrder K]

/-- The distinct scores, decreasing (scikit-learn `_binary_clf_curve`, external). -/
def thresholds (scores : List K) : List K := scores.dedup.insertionSort (· ≥ ·)

/-- Numbers of false and of true positives for each threshold (scikit-learn `_binary_clf_curve`,
external). -/
def clfCurve (y : List ℕ) (scores : List K) : List (ℕ × ℕ) :=
  (thresholds scores).map fun t =>
    ((y.zip scores).countP fun q => decide (q.1 ≠ 1 ∧ t ≤ q.2),
     (y.zip scores).countP fun q => decide (q.1 = 1 ∧ t ≤ q.2))

/-- `drop_intermediate`: drops the points half way between their neighbours, except the first and the last
(scikit-learn `roc_curve`, external); `p` is the previous point. -/
def dropFrom (p : ℕ × ℕ) : List (ℕ × ℕ) → List (ℕ × ℕ)
  | q :: r :: l =>
    if p.1 + r.1 = 2 * q.1 ∧ p.2 + r.2 = 2 * q.2 then dropFrom q (r :: l) else q :: dropFrom q (r :: l)
  | l => l

def dropIntermediate : List (ℕ × ℕ) → List (ℕ × ℕ)
  | [] => []
  | p :: l => p :: dropFrom p l

/-- `n / total`, `NaN` if there are no cases. -/
def rate (n total : ℕ) : Option K := if total = 0 then none else some ((n : K) / (total : K))

/-- `metrics.roc_curve` (scikit-learn, external): the pairs of rates; `none` is `NaN`. -/
def rocCurve (y : List ℕ) (scores : List K) : Except Err (List (Option K × Option K)) :=
  if y.length ≠ scores.length ∨ y = [] then .error .valueError
  else
    let pts := (0, 0) :: dropIntermediate (clfCurve y scores)
    let last := pts.getLastD (0, 0)
    .ok (pts.map fun p => (rate p.1 last.1, rate p.2 last.2))

/-- The trapezoidal rule. -/
def trapz : List (K × K) → K
  | p :: q :: l => (q.1 - p.1) * (p.2 + q.2) / 2 + trapz (q :: l)
  | _ => 0

/-- All numbers, unless there is a `NaN`. -/
def numbers (pts : List (Option K × Option K)) : Option (List (K × K)) :=
  pts.mapM fun p => p.1.bind fun x => p.2.map fun y => (x, y)

/-- `metrics.auc` (scikit-learn, external): the abscissae have to be monotone; with a `NaN` the result is `NaN`. -/
def auc (pts : List (Option K × Option K)) : Except Err (Option K) :=
  if pts.length < 2 then .error .valueError
  else match numbers pts with
    | none => .ok none
    | some l =>
      if l.IsChain (fun p q => p.1 ≤ q.1) then .ok (some (trapz l))
      else if l.IsChain (fun p q => q.1 ≤ p.1) then .ok (some (-trapz l))
      else .error .valueError

/-- `roc_auc`, up to the call of `roc_curve`: `evaluation/evaluation.py:99-104`.  `order` and `order'` are
iteration orders of the set of states. -/
def rocFrames (oracle : DF Str S → DF Str S) (pattern : Str → Except Err (Str → Bool)) (int : ℕ → S) (num : K → S)
    (str : S → Str) (order order' : List S) (net : Net Str S K) (h : Heap Str S) (ref : ℕ) (node : Str) :
    Heap Str S × Except Err (Frame S ℕ × Frame Str (Option S)) :=
  match h[ref]?, net.states with
  | none, _ => (h, .error .keyError)
  | some df, none => if node ∈ df.cols then (h, .error .attributeError) else (h, .error .keyError)
  | some df, some states =>
    if node ∉ df.cols ∨ node ∉ states.map Prod.fst then (h, .error .keyError)
    else
      match predictProbability oracle pattern int num (fmtName str) order' net h ref node with
      | (h, .error err) => (h, .error err)
      | (h, .ok predictions) =>
        (h, .ok (groundTruth order (df.rows.map fun r => r node), renamed node predictions))

/-- `roc_auc`: `evaluation/evaluation.py:53-112`.  `toNum` reads a Python value as a number; other values, and
nulls, make `roc_curve` raise `ValueError`. -/
def rocAuc (oracle : DF Str S → DF Str S) (pattern : Str → Except Err (Str → Bool)) (int : ℕ → S) (num : K → S)
    (toNum : S → Option K) (str : S → Str) (order order' : List S) (net : Net Str S K) (h : Heap Str S)
    (ref : ℕ) (node : Str) : Heap Str S × Except Err (List (Option K × Option K) × Option K) :=
  match rocFrames oracle pattern int num str order order' net h ref node with
  | (h, .error err) => (h, .error err)
  | (h, .ok (gt, pr)) => (h,
    match pr.rows.flatten.mapM fun c => c.bind toNum with
    | none => .error .valueError
    | some scores => do
      let roc ← rocCurve gt.rows.flatten scores
      return (roc, ← auc roc))

/-! ### `classification_report` -/

/-- One entry of the report. -/
structure Scores (K : Type) where
  precision : K
  recall : K
  f1 : K
  support : ℕ
  deriving DecidableEq

/-- `x / y`, 0 if that is undefined (scikit-learn `_prf_divide`, external). -/
def safeDiv (x y : K) : K := if y = 0 then 0 else x / y

/-- The scores of one label (scikit-learn `precision_recall_fscore_support`, external). -/
def labelScores (yTrue yPred : List S) (s : S) : Scores K :=
  let tp := (yTrue.zip yPred).countP fun q => decide (q.1 = s ∧ q.2 = s)
  let p : K := safeDiv (tp : K) (yPred.countP (· = s) : ℕ)
  let r : K := safeDiv (tp : K) (yTrue.countP (· = s) : ℕ)
  ⟨p, r, safeDiv (2 * p * r) (p + r), yTrue.countP (· = s)⟩

/-- A value of the report: a dictionary of scores, or a number. -/
inductive Entry (K : Type) where
  | scores (e : Scores K)
  | number (x : K)
  deriving DecidableEq

/-- Average `micro`: the scores of the numbers summed over all labels (scikit-learn
`precision_recall_fscore_support`, external). -/
def microScores (yTrue yPred labels : List S) : Scores K :=
  let tp := (labels.map fun s => (yTrue.zip yPred).countP fun q => decide (q.1 = s ∧ q.2 = s)).sum
  let n := (labels.map fun s => yTrue.countP (· = s)).sum
  let p : K := safeDiv (tp : K) ((labels.map fun s => yPred.countP (· = s)).sum : ℕ)
  let r : K := safeDiv (tp : K) n
  ⟨p, r, safeDiv (2 * p * r) (p + r), n⟩

/-- Average `macro`: the means of the scores (scikit-learn `precision_recall_fscore_support`, external). -/
def macroScores (yTrue yPred labels : List S) : Scores K :=
  let l : List (Scores K) := labels.map (labelScores yTrue yPred)
  ⟨(l.map (·.precision)).sum / l.length, (l.map (·.recall)).sum / l.length, (l.map (·.f1)).sum / l.length,
    (l.map (·.support)).sum⟩

/-- Average `weighted`: the means of the scores with the supports as weights, 0 if all of these are 0
(scikit-learn `precision_recall_fscore_support`, external). -/
def weightedScores (yTrue yPred labels : List S) : Scores K :=
  let l : List (Scores K) := labels.map (labelScores yTrue yPred)
  let n := (l.map (·.support)).sum
  ⟨safeDiv (l.map fun e => (e.support : K) * e.precision).sum n,
    safeDiv (l.map fun e => (e.support : K) * e.recall).sum n,
    safeDiv (l.map fun e => (e.support : K) * e.f1).sum n, n⟩

/-- The averages and their names (scikit-learn, external).  Where every label occurs, and nothing else, the micro
average is replaced by a number called `accuracy`; not so in version 0.20, that is if `acc` is false. -/
def averages (acc : Bool) (yTrue yPred labels : List S) : List (Str × Entry K) :=
  [if acc ∧ (∀ s ∈ labels, s ∈ yTrue ∨ s ∈ yPred) ∧ (∀ s ∈ yTrue, s ∈ labels) ∧ (∀ s ∈ yPred, s ∈ labels) then
      (['a', 'c', 'c', 'u', 'r', 'a', 'c', 'y'], .number (microScores yTrue yPred labels).precision)
    else (['m', 'i', 'c', 'r', 'o', ' ', 'a', 'v', 'g'], .scores (microScores yTrue yPred labels)),
    (['m', 'a', 'c', 'r', 'o', ' ', 'a', 'v', 'g'], .scores (macroScores yTrue yPred labels)),
    (['w', 'e', 'i', 'g', 'h', 't', 'e', 'd', ' ', 'a', 'v', 'g'], .scores (weightedScores yTrue yPred labels))]

/-- `metrics.classification_report(..., output_dict=True)` (scikit-learn, external): a dictionary, in which a
repeated name keeps the last entry.  The averages are stored afterwards. -/
def sklearnReport (acc : Bool) (yTrue yPred labels : List S) (names : List Str) :
    Except Err (List (Str × Entry K)) :=
  if yTrue.length ≠ yPred.length then .error .valueError
  else .ok (Dict.update (Dict.ofList (names.zip (labels.map fun s => .scores (labelScores yTrue yPred s))))
    (averages acc yTrue yPred labels))

/-- `classification_report`: `evaluation/evaluation.py:115-205`.  `order` and `order'` are iteration orders of the
set of states, `acc` depends on the version of scikit-learn.  A null in the column of the node makes scikit-learn
raise `ValueError`. -/
def classificationReport (oracle : DF Str S → List ℕ) (int : ℕ → S) (predName : Str → Str) (str : S → Str)
    (order order' : List S) (acc : Bool) (net : Net Str S K) (h : Heap Str S) (ref : ℕ)
    (node : Str) : Heap Str S × Except Err (List (Str × Entry K)) :=
  match h[ref]? with
  | none => (h, .error .keyError)
  | some df =>
    match predict oracle int predName net h ref node with
    | (h, .error err) => (h, .error err)
    | (h, .ok predictions) => (h,
      match net.states with
      | none => .error .attributeError
      | some states =>
        if node ∉ states.map Prod.fst ∨ node ∉ df.cols then .error .keyError
        else
          let labels := order.insertionSort (· ≤ ·)
          let names := (order'.insertionSort (· ≤ ·)).map (fmtName str node)
          match df.rows.mapM fun r => r node, predictions.rows.mapM fun r => r (predName node) with
          | some yTrue, some yPred => sklearnReport acc yTrue yPred labels names
          | _, _ => .error .valueError)

end

end Verif.Evaluation
