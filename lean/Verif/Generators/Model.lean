import Verif.Notears.Model
import Mathlib.Algebra.Order.Floor.Ring
import Mathlib.LinearAlgebra.Matrix.Notation
import Mathlib.Data.Matrix.Mul

/-!
# Model of `causalnex.structure.data_generators`: random structures

All random numbers are parameters; theorems quantify over them.
-/

namespace Verif.Generators

open Verif.Notears (Graph ofMatrix)

/-- Exceptions. -/
inductive Err
  | valueError | keyError
  deriving DecidableEq, Repr

/-- The random numbers drawn by `generate_structure` for `n` nodes.  `rand`, `unif` and `sign` are uniform
numbers, at least 0 and less than 1; `np.random.uniform(low, high)` is `low + (high - low) * unif`.
`pick i k` decides the `k`-th element of `np.random.choice(bag)` in turn `i`.  `perm` is the permutation of
the rows of the identity matrix. -/
structure Draws (K : Type) (n : ℕ) where
  rand : Fin n → Fin n → K
  pick : ℕ → ℕ → ℕ
  perm : Equiv.Perm (Fin n)
  unif : Fin n → Fin n → K
  sign : Fin n → Fin n → K

section
variable {K : Type} [Field K] [LinearOrder K]

/-- Python's `round` to an integer: half to even. -/
def pyRound [FloorRing K] (x : K) : ℤ :=
  let f := ⌊x⌋
  if x - f < 1 / 2 then f
  else if 1 / 2 < x - f then f + 1
  else if f % 2 = 0 then f else f + 1

/-- `np.tril(a, k=-1)`. -/
def tril {n : ℕ} (a : Matrix (Fin n) (Fin n) K) : Matrix (Fin n) (Fin n) K :=
  fun i j => if j < i then a i j else 0

/-- `(rand < p).astype(float)`. -/
def below {n : ℕ} (rand : Fin n → Fin n → K) (p : K) : Matrix (Fin n) (Fin n) K :=
  fun i j => if rand i j < p then 1 else 0

/-- `np.random.choice(bag, size=m)`; `pick k` decides the `k`-th element. -/
def choice (bag : List ℕ) (m : ℕ) (pick : ℕ → ℕ) : List ℕ :=
  (List.range m).map fun k => bag.getD (pick k % bag.length) 0

/-- `for j in dest: edge_flags[i, j] = 1`. -/
def mark (flags : ℕ → ℕ → K) (i : ℕ) (dest : List ℕ) : ℕ → ℕ → K :=
  dest.foldl (fun flags j => Function.update flags i (Function.update (flags i) j 1)) flags

/-- `for i in range(1, num_nodes): ...`, the turns `i, i + 1, ...` (`k` of them):
`structure/data_generators/core.py:107-114`. -/
def barabasi (m : ℕ) (pick : ℕ → ℕ → ℕ) : ℕ → ℕ → (ℕ → ℕ → K) → List ℕ → ℕ → ℕ → K
  | 0, _, flags, _ => flags
  | k + 1, i, flags, bag =>
    let dest := choice bag m (pick i)
    barabasi m pick k (i + 1) (mark flags i dest) (bag ++ [i] ++ dest)

/-- `edge_flags`, before the permutation: `structure/data_generators/core.py:100-123`. -/
def edgeFlags [FloorRing K] {n : ℕ} (degree : K) (graphType : String) (r : Draws K n) :
    Except Err (Matrix (Fin n) (Fin n) K) :=
  if graphType = "erdos-renyi" then
    let p := degree / ((n : K) - 1)
    .ok (tril (below r.rand p))
  else if graphType = "barabasi-albert" then
    let m := pyRound (degree / 2)
    if m < 0 then .error .valueError
    else .ok fun i j => barabasi m.toNat r.pick (n - 1) 1 (fun _ _ => 0) [0] i j
  else if graphType = "full" then .ok (tril fun _ _ => 1)
  else .error .valueError

/-- `perms.T.dot(edge_flags).dot(perms)` where `perms` are the permuted rows of the identity:
`structure/data_generators/core.py:126-127`. -/
def permuted {n : ℕ} (σ : Equiv.Perm (Fin n)) (flags : Matrix (Fin n) (Fin n) K) :
    Matrix (Fin n) (Fin n) K :=
  let perms := (1 : Matrix (Fin n) (Fin n) K).submatrix σ id
  perms.transpose * flags * perms

/-- `edge_weights`: `structure/data_generators/core.py:130-131`. -/
def edgeWeights {n : ℕ} (wMin wMax : K) (r : Draws K n) (i j : Fin n) : K :=
  let w := wMin + (wMax - wMin) * r.unif i j
  if r.sign i j < 1 / 2 then w * -1 else w

/-- An array as a function on all indices. -/
def ofFin {n : ℕ} (M : Fin n → Fin n → K) (i j : ℕ) : K :=
  if h : i < n ∧ j < n then M ⟨i, h.1⟩ ⟨j, h.2⟩ else 0

/-- `generate_structure`: `structure/data_generators/core.py:60-135`.  Simplification: the number of nodes is
not negative. -/
def generateStructure [FloorRing K] (n : ℕ) (degree : K) (graphType : String) (wMin wMax : K)
    (r : Draws K n) : Except Err (Graph ℕ K) :=
  if n < 2 then .error .valueError
  else
    let wMin := |wMin|
    let wMax := |wMax|
    if wMax < wMin then .error .valueError
    else
      match edgeFlags degree graphType r with
      | .error e => .error e
      | .ok flags =>
        let flags := permuted r.perm flags
        let adj := fun i j => (if flags i j ≠ 0 then 1 else 0) * edgeWeights wMin wMax r i j
        .ok (ofMatrix n (ofFin adj))

end

end Verif.Generators
