import Verif.Notears.PropsPandas
import Mathlib.Data.Rat.Floor
import Mathlib.Algebra.Order.Ring.Rat

/-!
# Concrete cases for the theorems on NOTEARS
-/

namespace Verif.Notears.Witness

/-- An optimiser that moves every unbounded coordinate up by one half (and, with a lower bound only, by
two), for the witnesses. -/
def demo : Minimizer ℚ := fun _ _ _ w bnds =>
  List.zipWith (fun b x => if b = (none, none) then x + 1 / 2 else if b = (some 0, none) then x + 2 else x) bnds w

theorem demo_respects : RespectsBounds demo := by
  intro k f g w bnds h
  unfold InBox demo at *
  induction h with
  | nil => simp
  | @cons b x bs xs hb _ ih =>
    rw [List.zipWith_cons_cons]
    refine List.Forall₂.cons ?_ ih
    split
    · rename_i h; subst h; simp
    · split
      · rename_i h; subst h
        simp only [Option.some.injEq, forall_eq', reduceCtorEq, false_implies, implies_true, and_true]
        have := hb.1 0 rfl
        linarith
      · exact hb

/-- A problem with finite scores. -/
def prob : Problem ℚ := { func := fun _ _ w => (w.sum : ℚ), grad := fun _ _ w => w.map fun _ => 1, score := fun _ => 0 }

theorem prob_finite : FiniteScores prob := by
  intro w h
  exact WithTop.zero_ne_top h

/-- Two rows, three columns. -/
def data : Data ℚ := ⟨2, 3, fun i j => some (i + j)⟩

def params : Params ℚ ℕ :=
  { maxIter := 3, hTol := 0, wThreshold := 1 / 4
    tabu := { edges := some [(0, 1)], parents := some [2], children := none } }

/-- Of the six edges between three nodes, three are excluded by the user and the other three learned. -/
example : fromNumpy prob demo 21 data params =
    .ok ⟨[0, 1, 2], [⟨0, 2, 1 / 2, "unknown"⟩, ⟨1, 0, 1 / 2, "unknown"⟩, ⟨1, 2, 1 / 2, "unknown"⟩]⟩ := by
  decide +kernel

/-- An edge with a weight equal to the threshold is not kept. -/
example : fromNumpy prob demo 21 data { params with wThreshold := 1 / 2 } = .ok ⟨[0, 1, 2], []⟩ := by
  decide +kernel

/-- `NaN` in the data. -/
example : fromNumpy prob demo 21 ⟨2, 3, fun i _ => if i = 0 then none else some 1⟩ params =
    .error .valueError := by
  decide +kernel

/-- An optimiser returning a split vector with both parts positive. -/
def demoLasso : Minimizer ℚ := fun _ _ _ w bnds =>
  (List.zipWith (fun b x => if b = (some 0, none) then x + 2 else x) bnds w).mapIdx fun k x =>
    if k < 9 then x else x / 2

example : fromNumpyLasso prob demoLasso 21 data params =
    .ok ⟨[0, 1, 2], [⟨0, 2, 1, "unknown"⟩, ⟨1, 0, 1, "unknown"⟩, ⟨1, 2, 1, "unknown"⟩]⟩ := by
  decide +kernel

/-- With lasso a weight equal to the threshold is kept. -/
example : fromNumpyLasso prob demoLasso 21 data { params with wThreshold := 1 } =
    .ok ⟨[0, 1, 2], [⟨0, 2, 1, "unknown"⟩, ⟨1, 0, 1, "unknown"⟩, ⟨1, 2, 1, "unknown"⟩]⟩ := by
  decide +kernel

def frame : DataFrame String ℚ := ⟨["a", "b", "c"], [true, true, true], 2, fun i j => some (i + j)⟩

def named : Params ℚ String :=
  { maxIter := 3, hTol := 0, wThreshold := 1 / 4
    tabu := { edges := some [("a", "b")], parents := some ["c"], children := none } }

theorem frame_nodup : frame.cols.Nodup := by decide

theorem named_known : TabuKnown frame.cols named.tabu := by
  refine ⟨?_, ?_, ?_⟩ <;> simp [named, frame]

example : fromPandas prob demo 21 frame named =
    .ok ⟨["a", "b", "c"], [⟨"a", "c", 1 / 2, "learned"⟩, ⟨"b", "a", 1 / 2, "learned"⟩,
      ⟨"b", "c", 1 / 2, "learned"⟩]⟩ := by
  decide +kernel

/-- A name that is not a column. -/
example : fromPandas prob demo 21 frame { named with tabu := { children := some ["d"] } } =
    .error .keyError := by
  decide +kernel

/-- Without distinct names the function fails with `KeyError` whenever an edge of the hidden column is
learned; hence the hypothesis of `fromPandas_ok`. -/
example : fromPandas prob demo 21 { frame with cols := ["a", "b", "a"] } { named with tabu := {} } =
    .error .keyError := by
  decide +kernel

/-- The theorems apply to the examples. -/
example (g : Graph String ℚ) (h : fromPandas prob demo 21 frame named = .ok g) :
    ∀ e ∈ g.edges, Permitted named.tabu e.src e.dst :=
  fromPandas_permitted demo_respects h

example := fromPandas_ok prob demo 21 frame_nodup named (by decide) named_known

example : ∃ g, fromNumpy prob demo 21 data params = .ok g :=
  (fromNumpy_total prob_finite (le_refl 21) data params).1 ⟨by decide, by decide⟩

/-- If the score overflows, `from_numpy` does not return: no number of steps is enough. -/
theorem from_numpy_diverges : ¬ ∀ (P : Problem ℚ) (minimize : Minimizer ℚ) (X : Data ℚ) (a : Params ℚ ℕ),
    ∃ fuel, fromNumpy P minimize fuel X a ≠ .error .outOfFuel := by
  intro h
  obtain ⟨fuel, hf⟩ := h { prob with score := fun _ => ⊤ } demo data params
  apply hf
  unfold fromNumpy learnStructure
  rw [if_neg (by decide), if_neg (by decide), learnLoop_diverges (by intro; rfl) _ (by decide)]

end Verif.Notears.Witness
