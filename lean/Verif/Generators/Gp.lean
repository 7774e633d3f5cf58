import Mathlib.Analysis.SpecialFunctions.Pow.NNReal
import Mathlib.Data.List.Sort

/-!
# Model of `_gp_index` and its specification (C58)

A row of the input is a list of numbers.  The two functions that draw from a normal distribution are parameters: what
they return together with the values (`C`, the covariance matrix) is passed on to the next chunk.
-/

namespace Verif.Generators

/-- `y.std()`. -/
noncomputable def stdDev (y : List ℝ) : ℝ :=
  let m := y.sum / y.length
  Real.sqrt ((y.map fun a => (a - m) ^ 2).sum / y.length)

/-- `_scale_y`: `structure/data_generators/core.py:843-845`. -/
noncomputable def scaleY (y : List ℝ) : List ℝ := y.map (· / stdDev y)

/-- `np.array_split(l, k)`, by its documentation: the first `len(l) % k` pieces have `len(l) // k + 1` elements, the
others `len(l) // k`. -/
def arraySplit {α : Type} (l : List α) (k : ℕ) : List (List α) :=
  go l (l.length / k) (l.length % k) k
where
  go (l : List α) (size extra : ℕ) : ℕ → List (List α)
    | 0 => []
    | k + 1 =>
      let s := if extra = 0 then size else size + 1
      l.take s :: go (l.drop s) size (extra - 1) k

/-- `_unconditional_sample` and `_conditional_sample` as functions of the input (`structure/data_generators/core.py:759-782`): the
random numbers they use are arbitrary, hence these functions are. -/
structure GpSampler (C : Type) where
  first : List (List ℝ) → List ℝ × C
  next : (xNew xOld : List (List ℝ)) → (fOld : List ℝ) → C → List ℝ × C

/-- The loop over the chunks: `structure/data_generators/core.py:828-837`.  `fOld` is the last output. -/
def gpChunks {C : Type} (S : GpSampler C) (xOld : List (List ℝ)) (fOld : List ℝ) (c : C) :
    List (List (List ℝ)) → List (List ℝ)
  | [] => []
  | x :: xs =>
    let r := S.next x xOld fOld c
    r.1 :: gpChunks S x r.1 r.2 xs

/-- The way `np.argsort` orders real numbers and natural numbers (ties are broken in any way). -/
structure Argsort where
  real : List ℝ → List ℕ
  nat : List ℕ → List ℕ

/-- `_gp_index` for an array of rows with `cols` columns: `structure/data_generators/core.py:785-840`. -/
noncomputable def gpIndex {C : Type} (S : GpSampler C) (argsort : Argsort) (maxChunk cols : ℕ) (x : List (List ℝ)) : List ℝ :=
  if cols = 0 then x.map fun _ => 0
  else if x.length ≤ maxChunk then scaleY (S.first x).1
  else
    let ixSort := argsort.real (x.map fun r => r.getD 0 0)
    let reverseIx := argsort.nat ixSort
    let nSplits := x.length / maxChunk + 1
    match arraySplit (ixSort.map fun i => x.getD i []) nSplits with
    | [] => []
    | x0 :: xs =>
      let r := S.first x0
      let yAll := scaleY (r.1 :: gpChunks S x0 r.1 r.2 xs).flatten
      reverseIx.map fun i => yAll.getD i 0

/-! ### Specification -/

/-- `ix` sorts `a`: the documented result of `np.argsort`. -/
structure IsArgsort {α : Type} [LE α] (a : List α) (ix : List ℕ) : Prop where
  perm : ix.Perm (List.range a.length)
  sorted : ix.Pairwise fun i j => ∀ x ∈ a[i]?, ∀ y ∈ a[j]?, x ≤ y

/-- An `np.argsort` that sorts. -/
structure Argsort.Sorts (s : Argsort) : Prop where
  real : ∀ a, IsArgsort a (s.real a)
  nat : ∀ a, IsArgsort a (s.nat a)

/-- A sampler that returns one value for each row. -/
structure GpSampler.Shape {C : Type} (S : GpSampler C) : Prop where
  first : ∀ x, (S.first x).1.length = x.length
  next : ∀ x x' f c, (S.next x x' f c).1.length = x.length

/-- A sampler that draws the values of the function `f`. -/
structure GpSampler.Draws {C : Type} (S : GpSampler C) (f : List ℝ → ℝ) : Prop where
  first : ∀ x, (S.first x).1 = x.map f
  next : ∀ x x' g c, (S.next x x' g c).1 = x.map f

end Verif.Generators
