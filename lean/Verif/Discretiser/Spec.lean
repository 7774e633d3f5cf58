import Verif.Discretiser.Model

/-!
# Specification of the discretiser
-/

namespace Verif.Discretiser

section
variable {K : Type} [Field K] [LinearOrder K]

/-- The discretisers a user can have: a constructor call that succeeded, followed by any number of
calls of `fit`. -/
inductive Reach [FloorSemiring K] : Disc K → Prop
  | create {m b o n p d} : create m b o n p = .ok d → Reach d
  | fit {d d' data r} : Reach d → fit d data = (d', r) → Reach d'

/-- `v` is the `q`-quantile of the data: in the sorted data `s₀ ≤ … ≤ sₙ`, the point at position
`q * n` of the polygon through `(i, sᵢ)`. -/
def IsQuantile (data : List K) (q v : K) : Prop :=
  ∀ s : List K, s.Perm data → s.Pairwise (· ≤ ·) → ∀ (i : ℕ) (a : K), s[i]? = some a →
    (q * ((s.length - 1 : ℕ) : K) = i → v = a) ∧
    ∀ b, s[i + 1]? = some b → (i : K) ≤ q * ((s.length - 1 : ℕ) : K) →
      q * ((s.length - 1 : ℕ) : K) ≤ (i : K) + 1 →
      v = a + (q * ((s.length - 1 : ℕ) : K) - i) * (b - a)

/-- `m` is the least element of the data. -/
def IsMin (data : List K) (m : K) : Prop := m ∈ data ∧ ∀ x ∈ data, m ≤ x

/-- `m` is the greatest element of the data. -/
def IsMax (data : List K) (m : K) : Prop := m ∈ data ∧ ∀ x ∈ data, x ≤ m

/-- The value `x` lies in bucket `k` of the split points: between the `k`-th split point (included)
and the next one (excluded), where these exist. -/
def InBucket (points : List K) (x : K) (k : ℕ) : Prop :=
  k ≤ points.length ∧ (∀ (i : ℕ) (p : K), points[i]? = some p → i < k → p ≤ x) ∧
    ∀ (i : ℕ) (p : K), points[i]? = some p → k ≤ i → x < p

end

end Verif.Discretiser
