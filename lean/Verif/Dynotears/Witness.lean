import Verif.Dynotears.Objective
import Verif.Notears.Witness
import Verif.Notears.WitnessObjective

/-!
# Concrete cases for the theorems on DYNOTEARS
-/

namespace Verif.Dynotears.Witness

open Verif.Notears Verif.Notears.Witness Verif.Str

/-- An optimiser within its bounds that moves some coordinates up. -/
def up (k : ℕ) : List (Bound ℚ) → List ℚ → List ℚ
  | b :: bs, x :: xs =>
    (if b = (some 0, none) then x + (if k % 8 < 4 then 1 + (k : ℚ) else 0) else x) :: up (k + 1) bs xs
  | _, _ => []

def demoDyn : Minimizer ℚ := fun _ _ _ w bnds => up 0 bnds w

theorem demoDyn_respects : RespectsBounds demoDyn := by
  intro k f g w bnds h
  unfold InBox demoDyn at *
  generalize 0 = n
  induction h generalizing n with
  | nil => simp [up]
  | @cons b x bs xs hb _ ih =>
    rw [up]
    refine List.Forall₂.cons ?_ (ih _)
    split
    · rename_i h
      subst h
      simp only [Option.some.injEq, forall_eq', reduceCtorEq, false_implies, implies_true, and_true]
      have := hb.1 0 rfl
      have hn : (0 : ℚ) ≤ n := Nat.cast_nonneg n
      split <;> linarith
    · exact hb

/-- Two variables, three rows, one lag. -/
def X : Data ℚ := ⟨3, 2, fun i j => some (i + j)⟩
def Xlags : Data ℚ := ⟨3, 2, fun i j => some (i * j)⟩

theorem shapes : Shapes X Xlags := ⟨by decide, by decide, by decide, rfl, dvd_refl _⟩

def params : Params ℚ ℕ :=
  { maxIter := 2, hTol := 0, wThreshold := 3
    tabu := { edges := some [(1, 0, 1)], parents := none, children := none } }

/-- The learned graph: the weight 2 from the first to the second variable is below the threshold, the
weight 3 back is not; the edge from the first variable, one step before, to the second is excluded. -/
example : fromNumpyDynamic prob demoDyn 21 X Xlags params = .ok
    ⟨[lagName ['0'] 0, lagName ['1'] 0, lagName ['0'] 1, lagName ['1'] 1],
      [⟨lagName ['1'] 0, lagName ['0'] 0, 3, "unknown"⟩, ⟨lagName ['0'] 1, lagName ['0'] 0, 9, "unknown"⟩,
        ⟨lagName ['1'] 1, lagName ['0'] 0, 11, "unknown"⟩, ⟨lagName ['1'] 1, lagName ['1'] 0, 12, "unknown"⟩]⟩ := by
  decide +kernel

/-- The theorems apply to it. -/
example : ∃ g, fromNumpyDynamic prob demoDyn 21 X Xlags params = .ok g :=
  (fromNumpyDynamic_total prob_finite (le_refl 21) X Xlags params).1 shapes

example (g : Graph Str ℚ) (h : fromNumpyDynamic prob demoDyn 21 X Xlags params = .ok g) :
    ∀ e ∈ g.edges, ∃ k i j, k ≤ 1 ∧ i < 2 ∧ j < 2 ∧ e.src = lagName (natStr i) k ∧
      e.dst = lagName (natStr j) 0 ∧ Permitted params.tabu k i j :=
  fromNumpyDynamic_permitted demoDyn_respects h

/-- Without any column, the error is `ZeroDivisionError`. -/
example : fromNumpyDynamic prob demoDyn 21 ⟨3, 0, fun _ _ => none⟩ Xlags params = .error .zeroDivision := by
  decide +kernel

/-- Lagged data whose number of columns does not fit. -/
example : fromNumpyDynamic prob demoDyn 21 X ⟨3, 3, fun _ _ => some 1⟩ params = .error .valueError := by
  decide +kernel

/-- Column names that contain the separator of lagged names. -/
def cols : List Str := ["a_lag1".toList, "b".toList]

def named : Params ℚ Str :=
  { maxIter := 2, hTol := 0, wThreshold := 3
    tabu := { edges := some [(1, "a_lag1".toList, "b".toList)], parents := none, children := none } }

example : fromArrays (fun _ _ => prob) demoDyn 21 cols 1 X Xlags named = .ok
    ⟨["a_lag1_lag0".toList, "a_lag1_lag1".toList, "b_lag0".toList, "b_lag1".toList],
      [⟨"b_lag0".toList, "a_lag1_lag0".toList, 3, "learned"⟩,
       ⟨"a_lag1_lag1".toList, "a_lag1_lag0".toList, 9, "learned"⟩,
       ⟨"b_lag1".toList, "a_lag1_lag0".toList, 11, "learned"⟩, ⟨"b_lag1".toList, "b_lag0".toList, 12, "learned"⟩]⟩ := by
  decide +kernel

theorem named_known : TabuKnown cols named.tabu := by
  refine ⟨?_, ?_, ?_⟩
  · rintro te h e he
    cases h
    rw [List.mem_singleton.1 he]
    decide
  · rintro tp h; cases h
  · rintro tc h; cases h

example := (fromArrays_correct (fun _ _ => prob) demoDyn 21 (cols := cols) (by decide) (p := 1) (X := X)
  (Xlags := Xlags) rfl rfl named).2 named_known

/-- A data frame with a gap; three usable rows. -/
def frame : Transform.Frame Str Unit ℚ :=
  ⟨cols, [(), ()], true, [0, 1, 2, 5, 6], [fun _ => 0, fun _ => 1, fun _ => 2, fun _ => 3, fun _ => 4]⟩

theorem frame_good : Transform.Good (fun _ => true) none [.frame frame] ∧
    (∀ t ∈ Transform.framesOf [.frame frame], t.WF) ∧
    (∀ t ∈ Transform.framesOf [.frame frame], t.index.Pairwise (· < ·)) := by
  have h1 : Transform.framesOf [.frame frame] = [frame] := rfl
  rw [h1]
  refine ⟨(Transform.checkInput_ok _ _ _).1 (by decide +kernel), ?_, ?_⟩ <;> simp only [List.mem_singleton, forall_eq]
  · exact ⟨by decide +kernel, by decide +kernel⟩
  · decide +kernel

example : (match fromPandasDynamic (fun _ _ => prob) demoDyn 21 (fun _ => true) [.frame frame] 1 named with
    | .ok g => g.edges.length
    | .error _ => 0) = 4 := by decide +kernel

/-! ### The objective -/

noncomputable def XR : Data ℝ := ⟨1, 2, fun _ _ => some 1⟩

theorem shapesR : Shapes XR XR := ⟨by decide, by decide, by decide, rfl, dvd_refl _⟩

example := problem_gradient 1 2 shapesR 3 4

/-- One instantaneous edge and one lagged edge. -/
def vecR (x : ℝ) : List ℝ := [0, 1, x, 0, 0, 0, 0, 0, 1, 0, 0, 0, 0, 0, 0, 0]

theorem boxR {x : ℝ} (hx : 0 ≤ x) : InBox (bounds ({} : Tabu ℕ) 2 1) (vecR x) := by
  have : (bounds ({} : Tabu ℕ) 2 1 : List (Bound ℝ)) =
      [(some 0, some 0), (some 0, none), (some 0, none), (some 0, some 0),
       (some 0, some 0), (some 0, none), (some 0, none), (some 0, some 0),
       (some 0, none), (some 0, none), (some 0, none), (some 0, none),
       (some 0, none), (some 0, none), (some 0, none), (some 0, none)] := by
    simp [bounds, cells, List.range_succ, boundW, boundA]
  rw [this]
  simp [InBox, vecR, hx]

theorem dynotears_jump {x : ℝ} (hx : 0 ≤ x) (hTol thr : ℝ) :
    ∃ g, dynotears (jump (vecR x)) 1 1 1 XR XR ⟨1, hTol, thr, {}⟩ =
      .ok (g, decide (¬ expScore (matW 2 (vecR x)) ≤ hTol)) ∧
      IsDynGraph ((List.range 2).map natStr) 1 (weightOf 2 (vecR x)) thr "unknown" g := by
  obtain ⟨s, hs, hw, hwarn⟩ := jump_loop (P := problem 1 1 XR XR) (boxR hx)
    (x := expScore (matW 2 (vecR x))) rfl (2 * (1 + 1) * 2 ^ 2) hTol
  refine ⟨toGraph 2 1 (fun i j => cutStrict thr (wMat 2 s.wEst i j)) (fun i j => cutStrict thr (aMat 2 s.wEst i j)),
    fromNumpyDynamicW_ok.2 ⟨shapesR, s, hs, ?_⟩, ?_⟩
  · rw [← hwarn]
    rfl
  · rw [hw]
    exact toGraph_dyn (by decide : (2 : ℕ) ≠ 0) thr (vecR x)

/-- The hypotheses of `dynotears_acyclic` are met by a case where an edge is learned. -/
example : ∃ g, dynotears (jump (vecR 0)) 1 1 1 XR XR ⟨1, 1 / 32, 1 / 2, {}⟩ = .ok (g, false) ∧
    g.edges ≠ [] ∧ g.Acyclic := by
  obtain ⟨g, hg, hd⟩ := dynotears_jump (le_refl 0) (1 / 32) (1 / 2)
  have h0 : expScore (matW 2 (vecR 0)) = 0 := by
    rw [expScore_eq_zero_iff]
    have key : ∀ i j : Fin 2, Relation.TransGen (fun a b => matW 2 (vecR 0) a b ≠ 0) i j → i < j := by
      intro i j h
      induction h with
      | single h => revert h; rename_i b; fin_cases i <;> fin_cases b <;> simp [matW, wMat, vecR]
      | tail _ h ih =>
        rename_i b c _
        refine lt_trans ih ?_
        revert h; fin_cases b <;> fin_cases c <;> simp [matW, wMat, vecR]
    intro i hi
    exact lt_irrefl _ (key i i hi)
  have hg' : dynotears (jump (vecR 0)) 1 1 1 XR XR ⟨1, 1 / 32, 1 / 2, {}⟩ = .ok (g, false) := by
    rw [hg, h0]
    norm_num
  refine ⟨g, hg', ?_, ?_⟩
  · have : (⟨lagName (natStr 0) 0, lagName (natStr 1) 0, 1, "unknown"⟩ : Edge Str ℝ) ∈ g.edges := by
      refine (hd.edges _).2 ⟨0, 0, 1, natStr 0, natStr 1, by decide, by decide, by decide, ?_⟩
      simp [weightOf, vecR]
      norm_num
    intro h
    rw [h] at this
    simp at this
  · refine dynotears_acyclic hg' (by simp) (by norm_num) ?_
    intro k h1 h2
    have h2 : k ≤ 2 := h2
    interval_cases k <;> norm_num

/-- Without a suitable threshold a graph learned without a warning can have a cycle. -/
theorem dynotears_cyclic : ∃ (minimize : Minimizer ℝ) (X Xlags : Data ℝ) (a : Params ℝ ℕ) (g : Graph Str ℝ),
    RespectsBounds minimize ∧ 0 < a.hTol ∧ a.wThreshold = 0 ∧ a.maxIter ≠ 0 ∧
    dynotears minimize 1 1 1 X Xlags a = .ok (g, false) ∧ ¬ g.Acyclic := by
  have hcyc : ¬ NoCycle (matW 2 (vecR 1)) := by
    intro h
    refine h 0 (Relation.TransGen.tail (b := 1) (.single ?_) ?_) <;> simp [matW, wMat, vecR]
  have hpos : 0 < expScore (matW 2 (vecR 1)) :=
    lt_of_le_of_ne (expScore_nonneg _) fun h => hcyc ((expScore_eq_zero_iff _).1 h.symm)
  obtain ⟨g, hg, hd⟩ := dynotears_jump zero_le_one (expScore (matW 2 (vecR 1))) 0
  refine ⟨_, XR, XR, ⟨1, expScore (matW 2 (vecR 1)), 0, {}⟩, g, jump_respects (vecR 1), hpos, rfl, by simp, ?_, ?_⟩
  · rw [hg]
    simp
  · intro h
    refine h (lagName (natStr 0) 0) (Relation.TransGen.tail (b := lagName (natStr 1) 0)
      (.single ⟨⟨lagName (natStr 0) 0, lagName (natStr 1) 0, 1, "unknown"⟩, ?_, rfl, rfl⟩)
      ⟨⟨lagName (natStr 1) 0, lagName (natStr 0) 0, 1, "unknown"⟩, ?_, rfl, rfl⟩)
    · refine (hd.edges _).2 ⟨0, 0, 1, natStr 0, natStr 1, by decide, by decide, by decide, ?_⟩
      simp [weightOf, vecR]
    · refine (hd.edges _).2 ⟨0, 1, 0, natStr 1, natStr 0, by decide, by decide, by decide, ?_⟩
      simp [weightOf, vecR]

end Verif.Dynotears.Witness
