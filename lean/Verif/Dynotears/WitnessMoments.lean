import Verif.Dynotears.Reorder
import Verif.Notears.WitnessReorder

/-!
# Concrete cases for `Verif.Dynotears.Moments` and `Verif.Dynotears.Reorder`
-/

namespace Verif.Dynotears

open Verif.Notears Verif.Str

/-- A series of two variables at the times 0, 1, 2. -/
noncomputable def early : Transform.Frame Str Unit ℝ :=
  ⟨[['a'], ['b']], [(), ()], true, [0, 1, 2], [fun _ => 0, fun c => c.length, fun c => if c = ['a'] then 1 else 3]⟩

/-- The same variables at the times 5, 6. -/
noncomputable def late : Transform.Frame Str Unit ℝ :=
  ⟨[['a'], ['b']], [(), ()], true, [5, 6], [fun c => if c = ['a'] then 4 else 2, fun _ => 7]⟩

theorem series_good : Transform.Good (fun _ => true) none [.frame early, .frame late] := by
  refine ⟨early, _, rfl, fun e he => ?_⟩
  rcases List.mem_cons.1 he with rfl | he
  · exact ⟨early, rfl, by simp, rfl, rfl, by simp [early], rfl, by simp⟩
  · rw [List.mem_singleton] at he
    subst he
    exact ⟨late, rfl, by simp, rfl, rfl, by simp [late], rfl, by simp⟩

section
variable (minimize : Minimizer ℝ) (lambdaW lambdaA : ℝ) (a : Params ℝ Str) (g : Graph Str ℝ)

/-- The two series in the other order. -/
example : dynotearsFrames minimize 21 lambdaW lambdaA (fun _ : Unit => true) [.frame late, .frame early] 1 a =
      .ok g ↔
    dynotearsFrames minimize 21 lambdaW lambdaA (fun _ : Unit => true) [.frame early, .frame late] 1 a = .ok g :=
  frames_order minimize 21 lambdaW lambdaA _ (List.Perm.swap _ _ _) 1 a g

/-- Both series twice. -/
example : dynotearsFrames minimize 21 lambdaW lambdaA (fun _ : Unit => true)
      [.frame early, .frame late, .frame early, .frame late] 1 a =
    dynotearsFrames minimize 21 lambdaW lambdaA (fun _ : Unit => true) [.frame early, .frame late] 1 a :=
  frames_repeated minimize 21 lambdaW lambdaA _ (by simp) a series_good (m := 2) (by simp)

/-- Both series, the second ending at 1 instead of 6. -/
example : dynotearsFrames minimize 21 lambdaW lambdaA (fun _ : Unit => true)
      [.frame early, .frame { late with index := [0, 1] }] 1 a =
    dynotearsFrames minimize 21 lambdaW lambdaA (fun _ : Unit => true) [.frame early, .frame late] 1 a :=
  frames_shifted minimize 21 lambdaW lambdaA _ (fs := [early, late])
    (fs' := [early, { late with index := [0, 1] }]) (by simp) a
    (.cons ⟨0, by simp [early]⟩ (.cons ⟨-5, by simp [late]⟩ .nil)) series_good

/-- Both series in one data frame. -/
example : dynotearsFrames minimize 21 lambdaW lambdaA (fun _ : Unit => true)
      [.frame { early with index := [0, 1, 2, 5, 6], rows := early.rows ++ late.rows }] 1 a =
    dynotearsFrames minimize 21 lambdaW lambdaA (fun _ : Unit => true) [.frame early, .frame late] 1 a :=
  frames_split minimize 21 lambdaW lambdaA _ (pre := []) (post := []) (t := early) (t' := late) (by simp) a
    (by simp [Gap, early, late]) (by simp [early]) (by simp [late]) series_good

/-- Without a gap between them it does matter: with one lag the joined series has a row more. -/
example : (frameRows 1 [['a']] (joined early { late with index := [3, 4] })).length = 4 ∧
    (frameRows 1 [['a']] early ++ frameRows 1 [['a']] { late with index := [3, 4] }).length = 3 := by
  constructor <;> simp [frameRows, joined, early, late, Transform.cut, Transform.cutPoints, Transform.slice,
    Transform.windows]

end

/-- Arrays that agree in the mean products although no row of one is a row of the other. -/
theorem pairs_same : SamePairs ⟨2, 1, fun i _ => some (if i = 0 then 3 else 4)⟩
    ⟨2, 1, fun i _ => some (if i = 0 then 4 else -3)⟩ ⟨2, 1, fun i _ => some (if i = 0 then 5 else 0)⟩
    ⟨2, 1, fun i _ => some (if i = 0 then 0 else 5)⟩ := by
  refine ⟨⟨rfl, rfl, by simp, rfl, rfl, ?_, ?_, ?_⟩, ⟨by simp [Data.finite], by simp [Data.finite]⟩,
    ⟨by simp [Data.finite], by simp [Data.finite]⟩⟩
  all_goals
    intro j _ k _
    simp [crossMean, Finset.sum_range_succ]
    try norm_num

example (minimize : Minimizer ℝ) (a : Params ℝ ℕ) :=
  dynotears_products pairs_same minimize 21 0.1 0.1 a

/-- The series with their columns in the order `b`, `a`. -/
theorem swapped (t : Transform.Frame Str Unit ℝ) (h : t = early ∨ t = late) :
    SameSeries (Equiv.swap (0 : Fin 2) 1) t { t with cols := [['b'], ['a']] } := by
  have hr : ∀ {α : Type} (x y : α), Reordered (Equiv.swap (0 : Fin 2) 1) [x, y] [y, x] := by
    intro α x y
    refine ⟨rfl, rfl, fun k => ?_⟩
    fin_cases k <;> simp
  rcases h with rfl | rfl <;> exact ⟨hr _ _, hr _ _, rfl, rfl, rfl⟩

/-- Learning from the two series succeeds, whatever the optimiser does. -/
theorem series_learned (minimize : Minimizer ℝ) (maxIter : ℕ) (hTol thr : ℝ) :
    ∃ g, dynotearsFrames minimize 21 0.1 0.1 (fun _ => true) [.frame early, .frame late] 1
      ⟨maxIter, hTol, thr, {}⟩ = .ok g := by
  obtain ⟨X, Y, h1, h2, h3⟩ := frames_rows minimize 21 0.1 0.1 (fun _ => true) (p := 1) (by simp)
    ⟨maxIter, hTol, thr, {}⟩ rfl series_good
  have hlen : X.length = 3 := by
    have := congrArg List.length h2
    rw [List.length_zip, ← h1, Nat.min_self] at this
    rw [this]
    simp [Transform.framesOf, frameRows, early, late, Transform.cut, Transform.cutPoints, Transform.slice,
      Transform.windows]
  rw [h3]
  obtain ⟨t, -, -, hok⟩ := (fromArrays_correct (problem 0.1 0.1) minimize 21 (cols := early.cols)
    (by simp [early]) (p := 1) (X := toData early.cols.length X) (Xlags := toData (1 * early.cols.length) Y)
    rfl rfl ⟨maxIter, hTol, thr, {}⟩).2 ⟨by simp, by simp, by simp⟩
  obtain ⟨g, hg⟩ := (fromNumpyDynamic_total (P := problem 0.1 0.1 (toData early.cols.length X)
    (toData (1 * early.cols.length) Y)) (minimize := minimize) (fun _ => WithTop.coe_ne_top) (le_refl 21)
    (toData early.cols.length X) (toData (1 * early.cols.length) Y) ⟨maxIter, hTol, thr, t⟩).1
    ⟨by simp [toData, hlen], by simp [toData, early], by simp [toData, early], h1, by simp [toData]⟩
  obtain ⟨g', -, -, hg', -⟩ := hok g hg
  exact ⟨g', hg'⟩

/-- The hypotheses of `frames_columns` are met. -/
example (maxIter : ℕ) (hTol thr : ℝ) : ∃ g g',
    dynotearsFrames descend 21 0.1 0.1 (fun _ => true) [.frame early, .frame late] 1 ⟨maxIter, hTol, thr, {}⟩ =
      .ok g ∧
    dynotearsFrames descend 21 0.1 0.1 (fun _ => true) [.frame { early with cols := [['b'], ['a']] },
      .frame { late with cols := [['b'], ['a']] }] 1 ⟨maxIter, hTol, thr, {}⟩ = .ok g' ∧
    g'.nodes.Perm g.nodes ∧ g'.edges.Perm g.edges := by
  obtain ⟨g, hg⟩ := series_learned descend maxIter hTol thr
  obtain ⟨g', h⟩ := frames_columns descend_orderBlind 21 0.1 0.1 (fun _ => true)
    (.cons (swapped early (.inl rfl)) (.cons (swapped late (.inr rfl)) .nil))
    (by simp [early, late]) 1 ⟨maxIter, hTol, thr, {}⟩ hg
  exact ⟨g, g', hg, h⟩

end Verif.Dynotears
