import Verif.Pytorch.Expand

/-!
# Specification of the preprocessing
-/

namespace Verif.Pytorch

open Verif.Str

/-- The column given to a type. -/
def Enc.idx : Enc → ℕ
  | .cont i => i
  | .bin i => i
  | .poiss i => i
  | .cat i _ _ => i
  | .ord i _ _ => i

/-- The kind of a type. -/
def Enc.alias : Enc → Alias
  | .cont _ => .cont
  | .bin _ => .bin
  | .poiss _ => .poiss
  | .cat _ _ _ => .cat
  | .ord _ _ _ => .ord

/-- The columns recorded by a type. -/
def Enc.cols : Enc → List ℕ
  | .cont i => [i]
  | .bin i => [i]
  | .poiss i => [i]
  | .cat _ g _ => g
  | .ord i _ _ => [i]

/-- The sorted list of the different elements of `l`. -/
def SortedValues (l cats : List ℚ) : Prop := cats.Pairwise (· < ·) ∧ ∀ v, v ∈ cats ↔ v ∈ l

/-- What a type has learned from the original data. -/
def Enc.Learned (X : Frame) : Enc → Prop
  | .cont _ => True
  | .bin _ => True
  | .poiss i => ∀ v ∈ X.column i, 0 ≤ v
  | .cat i g cats => SortedValues (X.column i) cats ∧ g.length = cats.length ∧ g[0]? = some i
  | .ord i cats counts => SortedValues (X.column i) cats ∧ counts = cats.map fun c => (X.column i).count c

/-- A type accepts a row: no negative count, no unknown category. -/
def Enc.Accepts (row : List ℚ) : Enc → Prop
  | .cont _ => True
  | .bin _ => True
  | .poiss i => 0 ≤ row.getD i 0
  | .cat i _ cats => row.getD i 0 ∈ cats
  | .ord i cats _ => row.getD i 0 ∈ cats

/-- The row `out` holds the value of `row` as the type encodes it: unchanged, as the indicators of the categories in the recorded
columns, or as the position in the sorted categories. -/
def Enc.Encodes (row out : List ℚ) : Enc → Prop
  | .cont i => out[i]? = row[i]?
  | .bin i => out[i]? = row[i]?
  | .poiss i => out[i]? = row[i]?
  | .cat i g cats => ∀ (m k : ℕ) (c : ℚ), g[m]? = some k → cats[m]? = some c →
      out[k]? = some (if row.getD i 0 = c then 1 else 0)
  | .ord i cats _ => ∀ (m : ℕ), cats[m]? = some (row.getD i 0) → out[i]? = some (m : ℚ)

/-- A rectangular array. -/
def Frame.WF (X : Frame) : Prop := ∀ r ∈ X.rows, r.length = X.cols

/-- The user excludes only columns that exist. -/
def TabuBelow (n : ℕ) (t : Notears.Tabu ℕ) : Prop :=
  (∀ te, t.edges = some te → ∀ e ∈ te, e.1 < n ∧ e.2 < n) ∧ (∀ tp, t.parents = some tp → ∀ i ∈ tp, i < n) ∧
    ∀ tc, t.children = some tc → ∀ i ∈ tc, i < n

/-- Membership in an optional list. -/
def InOpt {α : Type} (a : α) (l : Option (List α)) : Prop := ∃ x, l = some x ∧ a ∈ x

end Verif.Pytorch
