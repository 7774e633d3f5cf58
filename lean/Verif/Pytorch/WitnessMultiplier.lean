import Verif.Pytorch.Multiplier
import Verif.Pytorch.Effects
import Verif.Notears.WitnessMultiplier

/-!
# Concrete cases for C87 and C88, PyTorch version
-/

namespace Verif.Pytorch.Witness

open Verif.Notears (Problem Minimizer Bound InBox RespectsBounds FindsMinima Permitted)
open Verif.Notears.Witness (jump jump_respects inBox_set tabu0)
open Filter Topology

theorem right_nonneg {f : ℝ → ℝ} {D x : ℝ} (hf : HasDerivWithinAt f D (Set.Ici x) x) (h : ∀ t, x ≤ t → f x ≤ f t) : 0 ≤ D := by
  have ht : Tendsto (slope f x) (𝓝[Set.Ioi x] x) (𝓝 D) :=
    (hasDerivWithinAt_iff_tendsto_slope' (by simp)).1 (hf.mono Set.Ioi_subset_Ici_self)
  refine ge_of_tendsto ht ?_
  filter_upwards [self_mem_nhdsWithin] with t ht
  rw [slope_def_field]
  exact div_nonneg (sub_nonneg.2 (h t (le_of_lt ht))) (sub_nonneg.2 (le_of_lt ht))

theorem left_nonpos {f : ℝ → ℝ} {D x : ℝ} (hf : HasDerivWithinAt f D (Set.Iic x) x) (h : ∀ t, t ≤ x → f x ≤ f t) : D ≤ 0 := by
  have ht : Tendsto (slope f x) (𝓝[Set.Iio x] x) (𝓝 D) :=
    (hasDerivWithinAt_iff_tendsto_slope' (by simp)).1 (hf.mono Set.Iio_subset_Iic_self)
  refine le_of_tendsto ht ?_
  filter_upwards [self_mem_nhdsWithin] with t ht
  rw [slope_def_field]
  exact div_nonpos_of_nonneg_of_nonpos (sub_nonneg.2 (h t (le_of_lt ht))) (sub_nonpos.2 (le_of_lt ht))

/-- An optimiser that finds minima ends without descent. -/
theorem noDescent_of_minima {P : Problem ℝ} {minimize : Minimizer ℝ} {bnds : List (Bound ℝ)} (hm : RespectsBounds minimize)
    (hfin : ∀ rho alpha : ℝ, ∀ w, P.func rho alpha w ≠ ⊤) (h : FindsMinima P minimize bnds) : EndsWithoutDescent P minimize bnds := by
  intro n rho alpha start hr ha hs k hb
  have hbox := hm n (P.func rho alpha) (P.grad rho alpha) start bnds hs
  obtain ⟨w, hw⟩ : ∃ w, minimize n (P.func rho alpha) (P.grad rho alpha) start bnds = w := ⟨_, rfl⟩
  have hmin : ∀ v, InBox bnds v → P.func rho alpha w ≤ P.func rho alpha v := by
    intro v hv
    rw [← hw]
    exact h v hv n rho alpha start hr ha hs
  rw [hw] at hbox ⊢
  have hkw : k < w.length := by rw [← hbox.length_eq]; exact (List.getElem?_eq_some_iff.1 hb).1
  have hself : w.set k (w.getD k 0) = w := by
    rw [List.getD_eq_getElem _ _ hkw, List.set_getElem_self]
  have hle : ∀ t, (P.func rho alpha (w.set k (w.getD k 0))).untopD 0 ≤ (P.func rho alpha (w.set k t)).untopD 0 := by
    intro t
    have h1 := hmin _ (inBox_set hbox hb (t := t) (by simp) (by simp))
    rw [hself]
    obtain ⟨a, ha⟩ := WithTop.ne_top_iff_exists.1 (hfin rho alpha w)
    obtain ⟨b, hb⟩ := WithTop.ne_top_iff_exists.1 (hfin rho alpha (w.set k t))
    rw [← ha, ← hb] at h1 ⊢
    exact WithTop.coe_le_coe.1 h1
  exact ⟨fun D hD => right_nonneg hD fun t _ => hle t, fun D hD => left_nonpos hD fun t _ => hle t⟩

/-- One row of data. -/
def X2 : Frame := ⟨2, [[1, 1]]⟩

/-- A lasso penalty, and no edges into column 0. -/
noncomputable def args2 : Args ℕ := { lasso := 1, tabu := tabu0 }

/-- The data after preprocessing. -/
def prep2 : Prep := ⟨[.cont 0, .cont 1], ⟨2, [[1, 1]]⟩, tabu0⟩

theorem prepared2 : prepareChecked X2 args2.schema args2.tabu = .ok prep2 := by rfl

theorem wf2 : X2.WF := by
  intro r hr
  simp [X2] at hr
  rw [hr]; rfl

noncomputable def arch2 : Arch := archOf args2 2

theorem bounds2 : boundsOf arch2 tabu0 = [(some 0, some 0), (some 0, some 0), (none, none), (some 0, some 0)] := by
  simp [boundsOf, arch2, archOf, args2, hiddenUnits, flatBounds, layerBounds, hiddenBnds, Arch.sizes, Arch.layerDims, Arch.dims, Arch.m1,
    List.range_succ, Notears.bound, tabu0]

theorem layout2 : Layout prep2.encs 2 arch2.d := prepare_isLayout wf2 (by intro s h; cases h) prepared2

theorem score2 (t : ℝ) : hFunc arch2 prep2.encs (arch2.net [0, 0, t, 0]) = 0 := by
  rw [(hFunc_zero_iff layout2 _).2]
  have key : ∀ u v, Relation.TransGen (WeightEdge arch2 [0, 0, t, 0] prep2.encs) u v → u < v := by
    have one : ∀ u v, WeightEdge arch2 [0, 0, t, 0] prep2.encs u v → u < v := by
      rintro u v ⟨e, he, f, hf, rfl, rfl, i, hi, j, hj, h, hh, hne⟩
      have hm1 : arch2.m1 = 1 := rfl
      have hd2 : arch2.d = 2 := rfl
      rw [hm1] at hh
      obtain rfl : h = 0 := by omega
      simp only [prep2, List.mem_cons, List.not_mem_nil, or_false] at he hf
      rcases he with rfl | rfl <;> rcases hf with rfl | rfl <;> simp [Enc.cols, Enc.idx] at hi hj ⊢ <;> subst hi <;> subst hj <;>
        simp [Arch.pos, hm1, hd2] at hne
    intro u v h
    induction h with
    | single h => exact one _ _ h
    | tail _ h ih => exact lt_trans ih (one _ _ h)
  exact fun u h => lt_irrefl _ (key u u h)

theorem func2 (rho alpha t : ℝ) : (torchProblem arch2 prep2.encs prep2.realRows 1 0).func rho alpha [0, 0, t, 0] =
    ((1 / 2 + 1 / 2 * (t - 1) ^ 2 + |t| / 2 : ℝ) : WithTop ℝ) := by
  change ((_ : ℝ) : WithTop ℝ) = _
  congr 1
  change primal arch2 prep2.encs prep2.realRows 1 0 rho alpha [0, 0, t, 0] = _
  rw [primal_eq _ _ _ _ _ _ _ _ (by rfl), score2]
  simp [penalisedLoss, prep2, Prep.realRows, Enc.loss, Enc.rowLoss, forward, firstLayer, Arch.net, arch2, archOf, args2, hiddenUnits,
    Arch.sizes, Arch.layerDims, Arch.dims, Arch.m1, readLayers, slices, biasAt, Finset.sum_range_succ, realRow]

theorem jump2_minima : FindsMinima (torchProblem arch2 prep2.encs prep2.realRows 1 0) (jump [0, 0, 1 / 2, 0]) (boundsOf arch2 tabu0) := by
  intro w₀ hw k rho alpha start _ _ _
  rw [bounds2] at hw ⊢
  unfold jump
  rw [if_pos (by simp [InBox])]
  obtain ⟨t, rfl⟩ : ∃ t, w₀ = [0, 0, t, 0] := by
    unfold InBox at hw
    match w₀, hw with
    | [a, b, c, d], hw =>
      simp at hw
      obtain ⟨h1, h2, h4⟩ := hw
      exact ⟨c, by rw [le_antisymm h1.2 h1.1, le_antisymm h2.2 h2.1, le_antisymm h4.2 h4.1]⟩
  rw [func2, func2, WithTop.coe_le_coe, abs_of_nonneg (by norm_num : (0 : ℝ) ≤ 1 / 2)]
  nlinarith [sq_nonneg (t - 1 / 2), le_abs_self t]

/-- The hypotheses of `fromNumpy_stationary` and `fromNumpy_effects` are met, and the edge from 0 to 1 is one of those the conclusions
are about. -/
example : ∃ g, fromNumpy (jump [0, 0, 1 / 2, 0]) (fun _ => 0) 17 X2 args2 = .ok g ∧ Permitted args2.tabu 0 1 ∧
    (∃ m D : ℝ, 0 ≤ m ∧
      HasDerivAt (fun t => penalisedLoss g.arch g.encs prep2.realRows 0 0 (g.params.set 2 t) +
        m * hFunc g.arch g.encs (g.arch.net (g.params.set 2 t))) D (g.params.getD 2 0) ∧ (0 < g.params.getD 2 0 → D = -(1 / 2))) ∧
    ∃ D, Effect g (fun _ => 1) 0 1 D := by
  obtain ⟨s, hs, -⟩ := fit_terminates (P := torchProblem arch2 prep2.encs (prep2.data.rows.map realRow) 1 0)
    (minimize := jump [0, 0, 1 / 2, 0]) (bnds := boundsOf arch2 prep2.tabu) (fun _ => WithTop.coe_ne_top)
    (initParams arch2 fun _ => 0) 100 (le_refl 17)
  have hok := fromNumpy_eq (x := args2) prepared2 (by rfl) (by rfl) hs
  have hp : Permitted args2.tabu 0 1 := by
    refine ⟨by decide, by simp [args2, tabu0], by simp [args2, tabu0], ?_⟩
    rintro tc h
    obtain rfl := Option.some.inj h
    decide
  have hsd : SchemaDict args2.schema := by intro s h; cases h
  refine ⟨_, hok, hp, ?_, ?_⟩
  · obtain ⟨m, hm, -, h⟩ := fromNumpy_stationary (jump_respects _) wf2 hsd (by
      refine ⟨by simp [args2, tabu0], by simp [args2, tabu0], ?_⟩
      rintro l h
      obtain rfl := Option.some.inj h
      decide) hok (by decide) (by norm_num [args2]) prepared2
      (noDescent_of_minima (jump_respects _) (fun _ _ _ => WithTop.coe_ne_top) jump2_minima)
    obtain ⟨D, h1, -, h2, -⟩ := h (.cont 0) (by simp [buildGraph, prep2]) (.cont 1) (by simp [buildGraph, prep2]) hp 0 (by simp [Enc.cols])
      1 (by simp [Enc.cols]) 0 (Nat.zero_lt_one)
    refine ⟨m, D, hm, h1, fun h0 => ?_⟩
    rw [h2 h0]
    norm_num [buildGraph, archOf, args2, prep2, Arch.m1, Arch.dims, hiddenUnits]
  · obtain ⟨D, h1, -⟩ := fromNumpy_effects wf2 hsd hok (by norm_num [args2]) prepared2 0 1 (by simp [buildGraph, archOf, prep2])
      (by simp [buildGraph, archOf, prep2])
    exact ⟨_, h1 _⟩

end Verif.Pytorch.Witness
