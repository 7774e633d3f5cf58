import Verif.Notears.WitnessOptimal
import Verif.Notears.PropsObjective
import Verif.Notears.Penalty
import Verif.Dynotears.Penalty

/-!
# With a positive penalty for the weights the optimisation problems have minima

So for all data there is an optimiser as C86 and C130 assume it.
-/

namespace Verif.Notears

open Finset

/-- An optimiser that returns a minimum within the bounds if there is one. -/
noncomputable def argmin : Minimizer ℝ := fun _ f _ s bnds =>
  open Classical in if h : ∃ w, InBox bnds w ∧ ∀ u, InBox bnds u → f w ≤ f u then Classical.choose h else s

theorem argmin_respects : RespectsBounds argmin := by
  intro k f g s bnds hs
  unfold argmin
  split
  · rename_i h
    exact (Classical.choose_spec h).1
  · exact hs

theorem inBox_ofFn {N : ℕ} {bnds : List (Bound ℝ)} (hN : bnds.length = N) (v : Fin N → ℝ) :
    InBox bnds (List.ofFn v) ↔ ∀ i : Fin N, (∀ l, (bnds.get (i.cast hN.symm)).1 = some l → l ≤ v i) ∧
      ∀ u, (bnds.get (i.cast hN.symm)).2 = some u → v i ≤ u := by
  subst hN
  unfold InBox
  rw [List.forall₂_iff_get]
  constructor
  · rintro ⟨h1, h2⟩ i
    have := h2 i.1 i.2 (by rw [List.length_ofFn]; exact i.2)
    simpa using this
  · intro h
    refine ⟨by rw [List.length_ofFn], fun i hi hi' => ?_⟩
    have := h ⟨i, hi⟩
    simpa using this

theorem isClosed_box {N : ℕ} {bnds : List (Bound ℝ)} (hN : bnds.length = N) : IsClosed {v : Fin N → ℝ | InBox bnds (List.ofFn v)} := by
  have : {v : Fin N → ℝ | InBox bnds (List.ofFn v)} = ⋂ i : Fin N, {v : Fin N → ℝ | (∀ l, (bnds.get (i.cast hN.symm)).1 = some l → l ≤ v i) ∧
      ∀ u, (bnds.get (i.cast hN.symm)).2 = some u → v i ≤ u} := by
    ext v
    simp only [Set.mem_ofPred_eq, Set.mem_iInter]
    exact inBox_ofFn hN v
  rw [this]
  refine isClosed_iInter fun i => ?_
  refine IsClosed.inter (?_ : IsClosed {v : Fin N → ℝ | ∀ l, (bnds.get (i.cast hN.symm)).1 = some l → l ≤ v i})
    (?_ : IsClosed {v : Fin N → ℝ | ∀ u, (bnds.get (i.cast hN.symm)).2 = some u → v i ≤ u})
  · simp only [Set.ofPred_forall]
    exact isClosed_iInter fun l => isClosed_iInter fun _ => isClosed_le continuous_const (continuous_apply i)
  · simp only [Set.ofPred_forall]
    exact isClosed_iInter fun l => isClosed_iInter fun _ => isClosed_le (continuous_apply i) continuous_const

/-- A continuous objective that is at least a multiple of the sum of the coordinates, which are nonnegative, has a minimum. -/
theorem minimum_exists {N : ℕ} {bnds : List (Bound ℝ)} (hN : bnds.length = N) {func : List ℝ → WithTop ℝ} {grad : List ℝ → List ℝ}
    (hG : IsGradient N func grad)
    (hpos : ∀ b ∈ bnds, b.1 = some 0) {c : ℝ} (hc : 0 < c) (hco : ∀ w, InBox bnds w → ((c * w.sum : ℝ) : WithTop ℝ) ≤ func w)
    {w₀ : List ℝ} (h0 : InBox bnds w₀) : ∃ w, InBox bnds w ∧ ∀ u, InBox bnds u → func w ≤ func u := by
  obtain ⟨f, g, hf, -, hd⟩ := hG
  have hcont : Continuous f := continuous_iff_continuousAt.2 fun v => (hd v).continuousAt
  have hvec : ∀ w, InBox bnds w → ∃ v : Fin N → ℝ, w = List.ofFn v := by
    intro w hw
    have hl : w.length = N := hw.length_eq.symm.trans hN
    refine ⟨fun i => w.get (i.cast hl.symm), ?_⟩
    apply List.ext_get
    · rw [List.length_ofFn, hl]
    · intro n h1 h2
      simp
  have hnn : ∀ v : Fin N → ℝ, InBox bnds (List.ofFn v) → ∀ i, 0 ≤ v i := fun v hv i =>
    ((inBox_ofFn hN v).1 hv i).1 0 (hpos _ (List.get_mem _ _))
  obtain ⟨v₀, rfl⟩ := hvec w₀ h0
  set S : Set (Fin N → ℝ) := {v | InBox bnds (List.ofFn v)} ∩ {v | ∀ i, v i ∈ Set.Icc (0 : ℝ) (f v₀ / c)} with hS
  have hSc : IsCompact S := by
    refine IsCompact.inter_left ?_ (isClosed_box hN)
    have : {v : Fin N → ℝ | ∀ i, v i ∈ Set.Icc (0 : ℝ) (f v₀ / c)} = Set.pi Set.univ fun _ => Set.Icc (0 : ℝ) (f v₀ / c) := by
      ext v
      simp only [Set.mem_ofPred_eq, Set.mem_pi, Set.mem_univ, true_imp_iff]
    rw [this]
    exact isCompact_univ_pi fun _ => isCompact_Icc
  have hin : ∀ v : Fin N → ℝ, InBox bnds (List.ofFn v) → f v ≤ f v₀ → v ∈ S := by
    intro v hv hle
    refine ⟨hv, fun i => ⟨hnn v hv i, ?_⟩⟩
    have h1 := hco _ hv
    rw [hf, WithTop.coe_le_coe, List.sum_ofFn] at h1
    have h2 : v i ≤ ∑ j, v j := Finset.single_le_sum (fun j _ => hnn v hv j) (Finset.mem_univ i)
    rw [le_div_iff₀ hc]
    nlinarith
  obtain ⟨v, hv, hmin⟩ := hSc.exists_isMinOn ⟨v₀, hin v₀ h0 (le_refl _)⟩ hcont.continuousOn
  refine ⟨List.ofFn v, hv.1, fun u hu => ?_⟩
  obtain ⟨u, rfl⟩ := hvec u hu
  rw [hf, hf, WithTop.coe_le_coe]
  by_cases hle : f u ≤ f v₀
  · exact hmin (hin u hu hle)
  · exact (hmin (hin v₀ h0 (le_refl _))).trans (not_le.1 hle).le

theorem argmin_finds {P : Problem ℝ} {bnds : List (Bound ℝ)} (h : ∀ rho alpha : ℝ, 0 < rho → 0 ≤ alpha →
    ∃ w, InBox bnds w ∧ ∀ u, InBox bnds u → P.func rho alpha w ≤ P.func rho alpha u) : FindsMinima P argmin bnds := by
  intro w₀ hw k rho alpha start hr ha _
  unfold argmin
  rw [dif_pos (h rho alpha hr ha)]
  exact (Classical.choose_spec (h rho alpha hr ha)).2 w₀ hw

/-- For all data and every positive `beta` there is an optimiser that finds minima of the problems of `from_numpy_lasso`. -/
theorem lasso_minima {beta : ℝ} (hb : 0 < beta) (X : Data ℝ) (t : Tabu ℕ) : FindsMinima (problemLasso beta X) argmin (boxLasso X.cols t) := by
  refine argmin_finds fun rho alpha hr ha => ?_
  have hl : (boxLasso X.cols t).length = 2 * X.cols * X.cols := by
    rw [boxLasso, List.length_append, List.length_map, cells_length]
    ring
  refine minimum_exists hl (problemLasso_gradient beta X rho alpha) ?_ hb ?_ (boxLasso_zero _ _)
  · intro b hb
    rw [boxLasso, List.mem_append, or_self] at hb
    obtain ⟨c, -, rfl⟩ := List.mem_map.1 hb
    unfold bound
    split_ifs <;> rfl
  · intro w _
    rw [(problemLasso_penalised beta X).func, WithTop.coe_le_coe]
    have h1 := expScore_nonneg (matSplit X.cols w)
    have h2 : 0 ≤ squaredError X (splitMatrix X.cols w) := by
      unfold squaredError
      exact div_nonneg (Finset.sum_nonneg fun _ _ => Finset.sum_nonneg fun _ _ => sq_nonneg _) (by positivity)
    have h3 : 0 ≤ 1 / 2 * rho * expScore (matSplit X.cols w) ^ 2 + alpha * expScore (matSplit X.cols w) := by positivity
    linarith

end Verif.Notears

namespace Verif.Dynotears

open Verif.Notears Finset

/-- For all data of suitable shape and positive penalties there is an optimiser that finds minima of the problems of `from_numpy_dynamic`. -/
theorem dyn_minima {lambdaW lambdaA : ℝ} (hW : 0 < lambdaW) (hA : 0 < lambdaA) {X Xlags : Data ℝ} (hS : Shapes X Xlags) (t : Tabu ℕ) :
    FindsMinima (problem lambdaW lambdaA X Xlags) argmin (bounds t X.cols (Xlags.cols / X.cols)) := by
  refine argmin_finds fun rho alpha hr ha => ?_
  refine minimum_exists (bounds_length _ _ _) (problem_gradient lambdaW lambdaA hS rho alpha) ?_ (lt_min hW hA) ?_ (bounds_zero _ _ _)
  · intro b hb
    rcases mem_bounds hb with rfl | rfl <;> rfl
  · intro w hw
    rw [(problem_penalised lambdaW lambdaA hS).func, WithTop.coe_le_coe]
    have h1 := expScore_nonneg (matW X.cols w)
    have h2 := squaredErrorDyn_nonneg X Xlags (Xlags.cols / X.cols) (weightOf X.cols w)
    have h3 : 0 ≤ 1 / 2 * rho * expScore (matW X.cols w) ^ 2 + alpha * expScore (matW X.cols w) := by positivity
    obtain ⟨p1, p2⟩ := penalty_le hw
    have p1' : 0 ≤ (w.take (2 * X.cols ^ 2)).sum := (absSum_nonneg _ _).trans p1
    have p2' : 0 ≤ (w.drop (2 * X.cols ^ 2)).sum := (Finset.sum_nonneg fun _ _ => absSum_nonneg _ _).trans p2
    have h4 : w.sum = (w.take (2 * X.cols ^ 2)).sum + (w.drop (2 * X.cols ^ 2)).sum := (List.sum_take_add_sum_drop w _).symm
    have h5 := mul_le_mul_of_nonneg_right (min_le_left lambdaW lambdaA) p1'
    have h6 := mul_le_mul_of_nonneg_right (min_le_right lambdaW lambdaA) p2'
    rw [h4, mul_add]
    linarith

end Verif.Dynotears

/-! ### Concrete cases for C130 -/

namespace Verif.Notears.Witness

open Finset

/-- The hypotheses of `notearsLasso_empty_iff` are met for all finite data with at least one row and column and every positive `beta`. -/
example {beta : ℝ} (hb : 0 < beta) (X : Data ℝ) (a : Params ℝ ℕ) (hX : X.finite = true ∧ X.rows * X.cols ≠ 0) (hmax : a.maxIter ≠ 0)
    (hthr : a.wThreshold = 0) : ∃ g, notearsLasso argmin 21 beta X a = .ok g ∧
      (g.edges = [] ↔ ∀ i < X.cols, ∀ j < X.cols, Permitted a.tabu i j → |crossSum X i j| ≤ beta * X.rows) := by
  obtain ⟨g, hg⟩ := (fromNumpyLasso_total (minimize := argmin) (problemLasso_finite beta X) (le_refl 21) X a).1 hX
  exact ⟨g, hg, notearsLasso_empty_iff argmin_respects hg hmax hb (lasso_minima hb X a.tabu) hthr⟩

/-- For the data of one row of two ones, an edge is learned exactly if `beta` is below 1. -/
example {beta : ℝ} (hb : 0 < beta) : ∃ g, notearsLasso argmin 21 beta data2 ⟨100, 1 / 10 ^ 8, 0, {}⟩ = .ok g ∧ (g.edges = [] ↔ 1 ≤ beta) := by
  obtain ⟨g, hg⟩ := (fromNumpyLasso_total (minimize := argmin) (problemLasso_finite beta data2) (le_refl 21) data2 ⟨100, 1 / 10 ^ 8, 0, {}⟩).1
    ⟨data2_finite, by decide⟩
  refine ⟨g, hg, (notearsLasso_empty_iff argmin_respects hg (by decide) hb (lasso_minima hb data2 _) rfl).trans ?_⟩
  have hc : ∀ i j, crossSum data2 i j = 1 := by intro i j; simp [crossSum, data2, Data.val]
  have hr : (data2.rows : ℝ) = 1 := by simp [data2]
  simp only [hc, hr, abs_one, mul_one]
  refine ⟨fun h => h 0 (by decide) 1 (by decide) ⟨by decide, ?_, ?_, ?_⟩, fun h _ _ _ _ _ => h⟩ <;> intro x hx <;> exact absurd hx (by simp)

open Verif.Dynotears in
/-- The hypotheses of `dynotears_empty_iff` are met for all data of suitable shape and all positive penalties. -/
example {lambdaW lambdaA : ℝ} (hW : 0 < lambdaW) (hA : 0 < lambdaA) (X Xlags : Data ℝ) (a : Dynotears.Params ℝ ℕ) (hS : Shapes X Xlags)
    (hmax : a.maxIter ≠ 0) (hthr : a.wThreshold = 0) : ∃ r, dynotears argmin 21 lambdaW lambdaA X Xlags a = .ok r ∧
      (r.1.edges = [] ↔ ∀ k ≤ Xlags.cols / X.cols, ∀ i < X.cols, ∀ j < X.cols, Dynotears.Permitted a.tabu k i j →
        |crossLag X Xlags k i j| ≤ (if k = 0 then lambdaW else lambdaA) * X.rows) := by
  obtain ⟨s, hs, -⟩ := learnLoop_terminates (P := Dynotears.problem lambdaW lambdaA X Xlags)
    (minimize := argmin) (bnds := Dynotears.bounds a.tabu X.cols (Xlags.cols / X.cols))
    (fun _ => WithTop.coe_ne_top) (2 * (Xlags.cols / X.cols + 1) * X.cols ^ 2) a.maxIter a.hTol (le_refl 21)
  have hok := fromNumpyDynamicW_ok.2 ⟨hS, s, hs, rfl⟩
  exact ⟨_, hok, dynotears_empty_iff argmin_respects hok hmax hW hA (dyn_minima hW hA hS a.tabu) hthr⟩

end Verif.Notears.Witness
