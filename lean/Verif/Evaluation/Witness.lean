import Verif.Evaluation.PropsFrequency
import Verif.Evaluation.PropsReport
import Mathlib.Algebra.Order.Ring.Rat
import Mathlib.Data.Rat.Cast.CharZero

/-!
# Concrete evaluations: the hypotheses of the theorems can be met, and counterexamples

States and probabilities are rational numbers; the structure is `p → n`, the child is determined by its parent.
-/

namespace Verif.Evaluation.Witness

open Verif.Network Verif.Str

def int (i : ℕ) : ℚ := i

theorem int_injective : Function.Injective int := fun _ _ h => Nat.cast_injective h

/-- The name of the child. -/
structure Case where
  node : Str
  low : ℚ
  high : ℚ
  str : ℚ → Str

def p : Str := ['p']

def row (c : Case) (a b : ℚ) : Str → Option ℚ := fun x => if x = p then some a else if x = c.node then some b else none

/-- Data in which the child has its low state if the parent is 0, and its high state if the parent is 1. -/
def df (c : Case) : DF Str ℚ := ⟨[p, c.node], [row c 0 c.low, row c 1 c.high, row c 1 c.high]⟩

def dict (c : Case) : List (Str × List (Option ℚ)) := [(p, [some 0, some 1]), (c.node, [some c.low, some c.high])]

def net₀ (c : Case) : Net Str ℚ ℚ := ⟨[p, c.node], [(p, c.node)], none, []⟩

def net₁ (c : Case) : Net Str ℚ ℚ := (setNodeStates (net₀ c) (dict c)).1

def net₂ (c : Case) : Net Str ℚ ℚ := (fitCpds int (net₁ c) [df c] 0 {}).1

/-- The area that `roc_auc` returns. -/
def area (c : Case) : Except Err (Option ℚ) :=
  (rocAuc id (fun _ => .ok fun _ => false) int id some c.str [c.low, c.high] [c.low, c.high] (net₂ c) [df c] 0 c.node).2.map (·.2)

/-- The decimal string of a natural number. -/
def numStr (q : ℚ) : Str := natStr q.num.toNat

/-- States 2 and 3. -/
def good : Case := ⟨['n'], 2, 3, numStr⟩

/-- States 2 and 10. -/
def numbers : Case := ⟨['n'], 2, 10, numStr⟩

/-- A node called `weather` with the states `bad` and `wet`. -/
def weather : Case := ⟨['w', 'e', 'a', 't', 'h', 'e', 'r'], 0, 1,
  fun q => if q = 0 then ['b', 'a', 'd'] else ['w', 'e', 't']⟩

/-- A node called `node` with the states `den` and `end`: both labels are empty. -/
def clash : Case := ⟨['n', 'o', 'd', 'e'], 0, 1, fun q => if q = 0 then ['d', 'e', 'n'] else ['e', 'n', 'd']⟩

/-- The predictions are perfect, and the area is 1. -/
theorem good_area : area good = .ok (some 1) := by decide +kernel

/-- The states 2 and 10 are compared as numbers in one frame, and as strings in the other: the predictions are
perfect, and the area is 0. -/
theorem numbers_area : area numbers = .ok (some 0) := by decide +kernel

/-- `lstrip` removes all of `wet`, as each of its characters occurs in `weather_`: the predictions are perfect, and
the area is 0. -/
theorem weather_area : area weather = .ok (some 0) := by decide +kernel

/-- If two labels are equal, there is an error. -/
theorem clash_area : area clash = .error .valueError := by decide +kernel

/-- The condition of `renamed_aligned_iff` fails in these cases. -/
example : ¬ [(2 : ℚ), 10].Pairwise (fun s s' => label numbers.str numbers.node s < label numbers.str numbers.node s') ∧
    ¬ [(0 : ℚ), 1].Pairwise (fun s s' => label weather.str weather.node s < label weather.str weather.node s') ∧
    [(2 : ℚ), 3].Pairwise (fun s s' => label good.str good.node s < label good.str good.node s') := by
  decide +kernel

/-! ### The hypotheses of the theorems -/

def ns : List Str := [p, ['n']]
def E : List (Str × Str) := [(p, ['n'])]

theorem isStructure : IsStructure ns E := ⟨by decide, by decide, by decide⟩

theorem init_ok : (init ns E : Except Err (Net Str ℚ ℚ)) = .ok (net₀ good) := by
  unfold init
  rw [if_neg (by decide +kernel), if_neg (by decide +kernel)]
  rfl

theorem reach₁ : Reach int ns E (net₁ good) :=
  .states (.init init_ok) (by decide +kernel) (by decide +kernel) (Prod.ext rfl rfl :
    setNodeStates (net₀ good) (dict good) = (net₁ good, (setNodeStates (net₀ good) (dict good)).2))

theorem states_p : statesOf (net₁ good) p = [0, 1] := by decide +kernel
theorem states_n : statesOf (net₁ good) good.node = [2, 3] := by decide +kernel

theorem fit_ok : fitCpds int (net₁ good) [df good] 0 {} =
    (net₂ good, (fitCpds int (net₁ good) [df good] 0 {}).2.1, .ok ()) := by
  refine Prod.ext rfl (Prod.ext rfl ?_)
  decide +kernel

/-- The CPD of the child. -/
def tab : Table Str ℚ ℚ := ⟨[2, 3], [p], [[0], [1]], [[1, 0], [0, 1]]⟩

def tabs : List (Str × Table Str ℚ ℚ) := [(p, ⟨[0, 1], [], [[]], [[1 / 3], [2 / 3]]⟩), (['n'], tab)]

deriving instance DecidableEq for Verif.Network.Table

theorem cpds_ok : cpds (net₂ good) = .ok tabs := by decide +kernel

theorem nonempty : ∀ v ∈ (net₁ good).nodes, statesOf (net₁ good) v ≠ [] := by decide +kernel

/-- The theorems apply to this network and its data. -/
example := rocAuc_correct_partial int_injective isStructure reach₁ nonempty fit_ok cpds_ok
  (v := ['n']) (t := tab) (by simp [tabs]) (h := [df good]) (ref := 0) (df := df good) rfl
  (by decide +kernel) (by decide +kernel) id (fun _ => .ok fun _ => false) (num := id) (toNum := some) (fun _ => rfl) numStr
  (order := [2, 3]) (order' := [3, 2]) (by decide +kernel) (by decide +kernel) (by decide +kernel) (by decide +kernel)
  (by decide +kernel) (by decide +kernel)

example := classificationReport_correct int_injective isStructure reach₁ nonempty fit_ok cpds_ok
  (v := ['n']) (t := tab) (by simp [tabs]) (h := [df good]) (ref := 0) (df := df good) rfl
  (by decide +kernel) (by decide +kernel) (fun _ => []) (fun v => v ++ ['_', 'p']) (str := numStr) (by decide +kernel)
  (order := [2, 3]) (order' := [3, 2]) (by decide +kernel) (by decide +kernel) true

example := classificationReport_averages int_injective isStructure reach₁ nonempty fit_ok cpds_ok
  (v := ['n']) (t := tab) (by simp [tabs]) (h := [df good]) (ref := 0) (df := df good) rfl
  (by decide +kernel) (by decide +kernel) (by decide +kernel) (fun _ => []) (fun v => v ++ ['_', 'p']) (str := numStr)
  (by decide +kernel) (order := [2, 3]) (order' := [3, 2]) (by decide +kernel) (by decide +kernel) true

/-- Test data with a wrong prediction: the state of the child is 2 although the parent is 1. -/
def test : DF Str ℚ := ⟨[p, ['n']], [row good 0 2, row good 1 3, row good 1 2]⟩

/-- The same rows, twice, in another order, and with a further column. -/
def test₂ : DF Str ℚ := ⟨[['z'], p, ['n']], [row good 1 2, row good 0 2, row good 1 3, row good 1 3, row good 0 2, row good 1 2]⟩

theorem test_frequencies : SameFrequencies [['n'], p] test.rows test₂.rows :=
  .of_copies _ (k := 2) (by
    change List.Perm [row good 1 2, row good 0 2, row good 1 3, row good 1 3, row good 0 2, row good 1 2]
      [row good 0 2, row good 1 3, row good 1 2, row good 0 2, row good 1 3, row good 1 2]
    generalize row good 0 2 = a
    generalize row good 1 3 = b
    generalize row good 1 2 = c
    have h1 : List.Perm [c, a, b] [a, b, c] := ((List.Perm.swap a c [b]).trans ((List.Perm.swap b c []).cons a))
    have h2 : List.Perm [b, a, c] [a, b, c] := List.Perm.swap a b [c]
    exact h1.append h2)

/-- The theorems apply to these frames. -/
example := rocAuc_frequencies int_injective isStructure reach₁ nonempty fit_ok cpds_ok
  (v := ['n']) (t := tab) (by simp [tabs]) (h := [test]) (h₂ := [test, test₂]) (ref := 0) (ref₂ := 1) (df := test)
  (df₂ := test₂) rfl rfl (by decide +kernel) (by decide +kernel) (by decide +kernel) (by decide +kernel) test_frequencies
  id (fun _ => .ok fun _ => false) (num := id) (toNum := some) (fun _ => rfl) (str := numStr)
  (by decide +kernel) (order := [2, 3]) (order' := [3, 2]) (by decide +kernel) (by decide +kernel) (by decide +kernel)

example := classificationReport_frequencies int_injective isStructure reach₁ nonempty fit_ok cpds_ok
  (v := ['n']) (t := tab) (by simp [tabs]) (h := [test]) (h₂ := [test, test₂]) (ref := 0) (ref₂ := 1) (df := test)
  (df₂ := test₂) rfl rfl (by decide +kernel) (by decide +kernel) (by decide +kernel) (by decide +kernel) test_frequencies
  (fun _ => []) (fun v => v ++ ['_', 'p']) (str := numStr)
  (by decide +kernel) (order := [2, 3]) (order' := [3, 2]) (by decide +kernel) (by decide +kernel) true

/-- The report of the smaller frame. -/
theorem test_report : (classificationReport (fun _ => []) int (fun v => v ++ ['_', 'p']) numStr [2, 3] [3, 2] true
    (net₂ good) [test] 0 ['n']).2 = .ok
      [("n_2".toList, .scores ⟨1, 1 / 2, 2 / 3, 2⟩), ("n_3".toList, .scores ⟨1 / 2, 1, 2 / 3, 1⟩),
        ("accuracy".toList, .number (2 / 3)), ("macro avg".toList, .scores ⟨3 / 4, 3 / 4, 2 / 3, 3⟩),
        ("weighted avg".toList, .scores ⟨5 / 6, 2 / 3, 2 / 3, 3⟩)] := by
  decide +kernel

/-- A curve with ties. -/
example : rocCurve [1, 0, 1, 0] [(1 / 2 : ℚ), 1 / 2, 1, 0] =
      .ok [(some 0, some 0), (some 0, some (1 / 2)), (some (1 / 2), some 1), (some 1, some 1)] ∧
    auc [(some (0 : ℚ), some 0), (some 0, some (1 / 2)), (some (1 / 2), some 1), (some 1, some 1)] =
      .ok (some (7 / 8)) ∧
    rankProbability (positives [1, 0, 1, 0] [(1 / 2 : ℚ), 1 / 2, 1, 0])
      (negatives [1, 0, 1, 0] [(1 / 2 : ℚ), 1 / 2, 1, 0]) = 7 / 8 := by
  decide +kernel

example := rocCurve_correct (y := [1, 0, 1, 0]) (s := [(1 / 2 : ℚ), 1 / 2, 1, 0]) rfl (by decide +kernel)
  (by decide +kernel)

/-- A point half way between its neighbours is dropped; the curve begins with a point that is kept. -/
example : dropIntermediate [(0, 1), (1, 2), (2, 3), (4, 4)] = [(0, 1), (2, 3), (4, 4)] := by decide

end Verif.Evaluation.Witness
