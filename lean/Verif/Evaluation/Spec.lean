import Verif.Evaluation.Model

/-!
# Specification for `causalnex.evaluation`
-/

namespace Verif.Evaluation

open Verif.Network Verif.Str

section
variable {S K : Type} [LinearOrder S] [Field K] [LinearOrder K]

/-- The scores of the cases that are positive. -/
def positives (y : List ℕ) (scores : List K) : List K := ((y.zip scores).filter (·.1 = 1)).map (·.2)

/-- The scores of the cases that are not positive. -/
def negatives (y : List ℕ) (scores : List K) : List K := ((y.zip scores).filter (·.1 ≠ 1)).map (·.2)

/-- Does the positive case `p` beat the negative case `n`?  A tie counts half. -/
def wins (p n : K) : K := if n < p then 1 else if n = p then 1 / 2 else 0

/-- The probability that a random positive case has a higher score than a random negative case; a tie counts
half. -/
def rankProbability (pos neg : List K) : K :=
  (pos.map fun p => (neg.map fun n => wins p n).sum).sum / (pos.length * neg.length)

/-- The name under which the column of a state is sorted: its string without the leading characters that occur
in the name of the node or are underscores. -/
def label (str : S → Str) (node : Str) (s : S) : Str := (str s).dropWhile fun c => decide (c ∈ node ∨ c = '_')

/-- Of the probabilities `P` (for each row and each state) those of the true states, or those of the other states. -/
def scoresOf (v : Str) (states : List S) (rows : List (Str → Option S)) (P : List (List K)) (b : Bool) : List K :=
  (rows.zip P).flatMap fun q => ((states.zip q.2).filter fun e => decide (decide (q.1 v = some e.1) = b)).map (·.2)

/-- The fraction `a / b`, 0 if `b` is 0. -/
def fraction (a b : ℕ) : K := if b = 0 then 0 else (a : K) / (b : K)

/-- Every combination of values in the columns `cols` has the same relative frequency in both tables. -/
def SameFrequencies (cols : List Str) (rows rows' : List (Str → Option S)) : Prop :=
  ∀ c : List (Option S), rows.countP (fun r => cols.map r = c) * rows'.length =
    rows'.countP (fun r => cols.map r = c) * rows.length

/-- Equal scores; the supports are in the ratio `n` to `n'`. -/
def Entry.Same (n n' : ℕ) : Entry K → Entry K → Prop
  | .scores e, .scores e' => e.precision = e'.precision ∧ e.recall = e'.recall ∧ e.f1 = e'.f1 ∧
      e.support * n' = e'.support * n
  | .number x, .number x' => x = x'
  | _, _ => False

end

end Verif.Evaluation
