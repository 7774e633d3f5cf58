import Verif.Recover.TorchSpec
import Mathlib.Probability.StrongLaw

/-!
# C154: consistency of the PyTorch version and of DAGRegressor
-/

namespace Verif.Recover

open MeasureTheory ProbabilityTheory Filter Verif.Pytorch Verif.Sklearn Finset
open Verif.Notears (Minimizer RespectsBounds NotWorse TabuNamed EqualErrors AcyclicWeights)

section
variable {d : ℕ} {V : ℕ → ℕ → ℝ} {b : ℕ → ℝ} {x : ℕ → List ℚ} {n : ℕ}

theorem firstRows_getD {i : ℕ} (hi : i < n) : (firstRows d n x).rows.getD i [] = x i := by
  simp [firstRows, List.getD_eq_getElem?_getD, List.getElem?_map, List.getElem?_range hi]

theorem firstRows_length : (firstRows d n x).rows.length = n := by simp [firstRows]

theorem firstRows_mean (j : ℕ) : (firstRows d n x).mean j = (∑ i ∈ range n, realRow (x i) j) / n := by
  unfold Frame.mean
  rw [firstRows_length]
  congr 1
  exact Finset.sum_congr rfl fun i hi => by rw [firstRows_getD (Finset.mem_range.1 hi)]

theorem firstRows_intercept (hn : n ≠ 0) (j : ℕ) :
    (firstRows d n x).intercept V j = b j + (∑ i ∈ range n, rowError d V b (x i) j) / n := by
  have hn' : (n : ℝ) ≠ 0 := Nat.cast_ne_zero.2 hn
  unfold Frame.intercept
  simp only [firstRows_mean, rowError]
  change _ - ∑ k ∈ range d, _ = _
  rw [Finset.sum_sub_distrib, Finset.sum_add_distrib, Finset.sum_const, Finset.card_range, nsmul_eq_mul, Finset.sum_comm]
  have : ∑ k ∈ range d, (∑ i ∈ range n, realRow (x i) k) / n * V k j = (∑ k ∈ range d, ∑ i ∈ range n, V k j * realRow (x i) k) / n := by
    rw [Finset.sum_div]
    refine Finset.sum_congr rfl fun k _ => ?_
    rw [← Finset.mul_sum]
    ring
  rw [this]
  field_simp
  ring

/-- The errors with respect to the centred data. -/
theorem firstRows_residual (hn : n ≠ 0) {i : ℕ} (hi : i < n) (j : ℕ) :
    ((firstRows d n x).real true).residual V i j = rowError d V b (x i) j - (∑ i ∈ range n, rowError d V b (x i) j) / n := by
  have h1 := firstRows_intercept (d := d) (V := V) (b := b) (x := x) hn j
  have h2 : ((firstRows d n x).real true).residual V i j = (realRow (x i) j - (firstRows d n x).mean j) -
      ∑ k ∈ range d, (realRow (x i) k - (firstRows d n x).mean k) * V k j := by
    unfold Notears.Data.residual
    have : ∀ j, ((firstRows d n x).real true).val i j = realRow (x i) j - (firstRows d n x).mean j := by
      intro j
      simp only [Notears.Data.val, Frame.real, Option.getD_some, firstRows_getD hi, if_true]
    simp only [this]
    rfl
  rw [h2]
  have h3 : (firstRows d n x).intercept V j = (firstRows d n x).mean j - ∑ k ∈ range d, (firstRows d n x).mean k * V k j := rfl
  simp only [sub_mul, Finset.sum_sub_distrib]
  have h4 : ∑ k ∈ range d, realRow (x i) k * V k j = ∑ k ∈ range d, V k j * realRow (x i) k := Finset.sum_congr rfl fun _ _ => mul_comm _ _
  unfold rowError at h1 ⊢
  rw [h4]
  linarith

theorem firstRows_residual' (hb : ∀ j < d, b j = 0) {i : ℕ} (hi : i < n) {j : ℕ} (hj : j < d) :
    ((firstRows d n x).real false).residual V i j = rowError d V b (x i) j := by
  unfold Notears.Data.residual
  have : ∀ j, ((firstRows d n x).real false).val i j = realRow (x i) j := by
    intro j
    simp only [Notears.Data.val, Frame.real, Option.getD_some, firstRows_getD hi, Bool.false_eq_true, if_false, sub_zero]
  simp only [this]
  unfold rowError
  rw [hb j hj, zero_add]
  congr 1
  exact Finset.sum_congr rfl fun _ _ => mul_comm _ _

theorem firstRows_product (hn : n ≠ 0) (j k : ℕ) :
    ((firstRows d n x).real true).residualProduct V j k = (∑ i ∈ range n, rowError d V b (x i) j * rowError d V b (x i) k) / n -
      (∑ i ∈ range n, rowError d V b (x i) j) / n * ((∑ i ∈ range n, rowError d V b (x i) k) / n) := by
  have hn' : (n : ℝ) ≠ 0 := Nat.cast_ne_zero.2 hn
  unfold Notears.Data.residualProduct
  have hr : ((firstRows d n x).real true).rows = n := firstRows_length
  rw [hr, Finset.sum_congr rfl fun i hi => by
    rw [firstRows_residual (b := b) hn (Finset.mem_range.1 hi) j, firstRows_residual (b := b) hn (Finset.mem_range.1 hi) k]]
  simp only [sub_mul, mul_sub, Finset.sum_sub_distrib, ← Finset.mul_sum, ← Finset.sum_mul, Finset.sum_const, Finset.card_range, nsmul_eq_mul]
  field_simp
  ring

theorem firstRows_product' (hb : ∀ j < d, b j = 0) {j k : ℕ} (hj : j < d) (hk : k < d) :
    ((firstRows d n x).real false).residualProduct V j k = (∑ i ∈ range n, rowError d V b (x i) j * rowError d V b (x i) k) / n := by
  unfold Notears.Data.residualProduct
  have hr : ((firstRows d n x).real false).rows = n := firstRows_length
  rw [hr, Finset.sum_congr rfl fun i hi => by
    rw [firstRows_residual' hb (Finset.mem_range.1 hi) hj, firstRows_residual' hb (Finset.mem_range.1 hi) hk]]

end

/-- What holds of all tables with enough rows. -/
structure Settled (d : ℕ) (V : ℕ → ℕ → ℝ) (b : ℕ → ℝ) (v : ℝ) (μ : ℕ → ℝ) (η : ℝ) (X : Frame) : Prop where
  errors : ∀ c : Bool, (c = true ∨ ∀ j < d, b j = 0) → EqualErrors (X.real c) V v η
  means : ∀ j < d, |X.mean j - μ j| ≤ η
  constants : ∀ j < d, |X.intercept V j - b j| ≤ η

/-- Laws of large numbers. -/
theorem settled_eventually {Ω : Type} [MeasurableSpace Ω] {P : Measure Ω} [IsProbabilityMeasure P] {d : ℕ} {V : ℕ → ℕ → ℝ} {b : ℕ → ℝ} {v : ℝ} {μ : ℕ → ℝ}
    {x : ℕ → Ω → List ℚ} (h : LinearRows P d V b v μ x) {η : ℝ} (hη : 0 < η) :
    ∀ᵐ ω ∂P, ∀ᶠ n in atTop, Settled d V b v μ η (firstRows d n (x · ω)) := by
  have hlaw : ∀ F : (Fin d → ℝ) → ℝ, Measurable F → Integrable (fun ω => F fun j => realRow (x 0 ω) j) P →
      ∀ᵐ ω ∂P, Tendsto (fun n : ℕ => (∑ i ∈ range n, F fun j => realRow (x i ω) j) / n) atTop (nhds (∫ ω, F (fun j => realRow (x 0 ω) j) ∂P)) := by
    intro F hF hI
    exact strong_law_ae_real (fun i ω => F fun j => realRow (x i ω) j) hI (fun i i' hne => (h.indep hne).comp hF hF)
      (fun i => (h.ident i).comp hF)
  let E : Fin d → (Fin d → ℝ) → ℝ := fun j r => r j - (b j + ∑ k : Fin d, V k j * r k)
  have hE : ∀ i ω (j : Fin d), E j (fun j => realRow (x i ω) j) = rowError d V b (x i ω) j := by
    intro i ω j
    unfold rowError
    rw [Finset.sum_range fun k => V k j * realRow (x i ω) k]
  have hEm : ∀ j, Measurable (E j) := by
    intro j
    fun_prop
  have hE2 : ∀ j : Fin d, MemLp (fun ω => E j fun j => realRow (x 0 ω) j) 2 P := by
    intro j
    have m1 : MemLp (fun _ : Ω => b j) 2 P := memLp_const _
    have m2 : MemLp (fun ω => ∑ k : Fin d, V k j * realRow (x 0 ω) k) 2 P :=
      memLp_finsetSum _ fun k _ => (h.square k k.2).const_mul (V k j)
    exact (h.square j j.2).sub (m1.add m2)
  have h1 : ∀ j : Fin d, ∀ᵐ ω ∂P, Tendsto (fun n : ℕ => (∑ i ∈ range n, realRow (x i ω) j) / n) atTop (nhds (μ j)) := fun j => by
    have := hlaw (fun r => r j) (measurable_pi_apply j) ((h.square j j.2).integrable (by norm_num))
    rwa [h.mean j j.2] at this
  have h2 : ∀ j : Fin d, ∀ᵐ ω ∂P, Tendsto (fun n : ℕ => (∑ i ∈ range n, rowError d V b (x i ω) j) / n) atTop (nhds 0) := fun j => by
    have := hlaw (E j) (hEm j) ((hE2 j).integrable (by norm_num))
    simp only [hE] at this
    rwa [h.errorMean j j.2] at this
  have h3 : ∀ q : Fin d × Fin d, ∀ᵐ ω ∂P, Tendsto (fun n : ℕ => (∑ i ∈ range n, rowError d V b (x i ω) q.1 * rowError d V b (x i ω) q.2) / n) atTop
      (nhds (if (q.1 : ℕ) = q.2 then v else 0)) := fun q => by
    have := hlaw (fun r => E q.1 r * E q.2 r) ((hEm _).mul (hEm _)) ((hE2 q.1).integrable_mul (hE2 q.2))
    simp only [hE] at this
    rwa [h.errorProduct _ q.1.2 _ q.2.2] at this
  filter_upwards [ae_all_iff.2 h1, ae_all_iff.2 h2, ae_all_iff.2 h3] with ω g1 g2 g3
  have near : ∀ {f : ℕ → ℝ} {a : ℝ}, Tendsto f atTop (nhds a) → ∀ᶠ n in atTop, |f n - a| < η := fun hf => by
    simpa [Real.dist_eq] using Metric.tendsto_nhds.1 hf η hη
  have g4 : ∀ q : Fin d × Fin d, Tendsto (fun n : ℕ => (∑ i ∈ range n, rowError d V b (x i ω) q.1 * rowError d V b (x i ω) q.2) / n -
      (∑ i ∈ range n, rowError d V b (x i ω) q.1) / n * ((∑ i ∈ range n, rowError d V b (x i ω) q.2) / n)) atTop
      (nhds (if (q.1 : ℕ) = q.2 then v else 0)) := fun q => by
    have := (g3 q).sub ((g2 q.1).mul (g2 q.2))
    rwa [mul_zero, sub_zero] at this
  filter_upwards [eventually_all.2 fun j => near (g1 j), eventually_all.2 fun j => near (g2 j), eventually_all.2 fun q => near (g3 q),
    eventually_all.2 fun q => near (g4 q), eventually_ge_atTop 1] with n k1 k2 k3 k4 hn
  have hn0 : n ≠ 0 := by omega
  refine ⟨fun c hc j hj k hk => ?_, fun j hj => ?_, fun j hj => ?_⟩
  · change j < d at hj
    change k < d at hk
    cases c with
    | true =>
      rw [firstRows_product (b := b) hn0]
      exact (k4 (⟨j, hj⟩, ⟨k, hk⟩)).le
    | false =>
      rw [firstRows_product' (hc.resolve_left (by simp)) hj hk]
      exact (k3 (⟨j, hj⟩, ⟨k, hk⟩)).le
  · rw [firstRows_mean]
    exact (k1 ⟨j, hj⟩).le
  · rw [firstRows_intercept (b := b) hn0, add_sub_cancel_left]
    simpa using (k2 ⟨j, hj⟩).le

/-- From the means and constants of a table to those of the distribution. -/
theorem near_truth {ι : Type} {s : Finset ι} {ε η w p c b S : ℝ} {r m μ : ι → ℝ} {N : ℕ} (hε : 0 < ε) (hs : s.card ≤ N)
    (h : |p - (c + S)| ≤ ε / 2 * (w + ∑ k ∈ s, |r k - m k|)) (hη : η * (ε / 2 * N + 1) ≤ ε / 2 * w) (hη0 : 0 ≤ η) (hc : |c - b| ≤ η)
    (hm : ∀ k ∈ s, |m k - μ k| ≤ η) : |p - (b + S)| ≤ ε * (w + ∑ k ∈ s, |r k - μ k|) := by
  have h1 : |p - (b + S)| ≤ |p - (c + S)| + |c - b| := by
    have := abs_add_le (p - (c + S)) (c - b)
    rwa [show p - (c + S) + (c - b) = p - (b + S) by ring] at this
  have h2 : ∑ k ∈ s, |r k - m k| ≤ ∑ k ∈ s, |r k - μ k| + N * η := by
    have h3 : ∑ k ∈ s, |r k - m k| ≤ ∑ k ∈ s, (|r k - μ k| + η) := by
      refine Finset.sum_le_sum fun k hk => ?_
      have := abs_add_le (r k - μ k) (μ k - m k)
      rw [show r k - μ k + (μ k - m k) = r k - m k by ring, abs_sub_comm (μ k)] at this
      linarith [hm k hk]
    rw [Finset.sum_add_distrib, Finset.sum_const, nsmul_eq_mul] at h3
    have h4 : (s.card : ℝ) * η ≤ N * η := mul_le_mul_of_nonneg_right (by exact_mod_cast hs) hη0
    linarith
  have h5 : 0 ≤ ∑ k ∈ s, |r k - μ k| := Finset.sum_nonneg fun _ _ => abs_nonneg _
  nlinarith [mul_le_mul_of_nonneg_left h2 (half_pos hε).le, mul_nonneg hε.le h5]

/-- **C154**, PyTorch version of `from_numpy`: almost surely, from all tables with sufficiently many of the rows it learns the equations behind them. -/
theorem torch_eventually_learned {d : ℕ} {V : ℕ → ℕ → ℝ} (hV : AcyclicWeights d V) {v ε : ℝ} (hv : 0 < v) (hε : 0 < ε) :
    ∃ δ > 0, ∀ (Ω : Type) (_ : MeasurableSpace Ω) (P : Measure Ω) (b μ : ℕ → ℝ) (x : ℕ → Ω → List ℚ), IsProbabilityMeasure P →
      LinearRows P d V b v μ x → ∀ᵐ ω ∂P, ∀ᶠ n in atTop, LearnsTorch (firstRows d n (x · ω)) V b v μ ε δ := by
  obtain ⟨δ₁, hδ₁, r₁⟩ := fromNumpy_recovers hV hε
  obtain ⟨δ₂, hδ₂, r₂⟩ := fromNumpy_predicts hV (half_pos hε)
  have hw : 0 < √v := Real.sqrt_pos.2 hv
  let η : ℝ := ε / 2 * √v / (ε / 2 * d + 1)
  have hη : 0 < η := by positivity
  have hη' : η * (ε / 2 * d + 1) ≤ ε / 2 * √v := le_of_eq (div_mul_cancel₀ _ (by positivity))
  let δ₀ : ℝ := min δ₁ δ₂
  have hδ₀ : 0 < δ₀ := lt_min hδ₁ hδ₂
  refine ⟨min δ₀ (δ₀ * v), by positivity, fun Ω _ P b μ x hP h => ?_⟩
  have l1 : δ₀ * v ≤ δ₁ * v := mul_le_mul_of_nonneg_right (min_le_left _ _) hv.le
  have l2 : δ₀ * v ≤ δ₂ * v := mul_le_mul_of_nonneg_right (min_le_right _ _) hv.le
  filter_upwards [settled_eventually h (η := min η (δ₀ * v)) (by positivity)] with ω hω
  filter_upwards [hω] with n hn minimize init fuel a g hsd hcont hlin hbias hm hrun hmax hlasso hridge hpen hopt hsc
  have hwf : (firstRows d n (x · ω)).WF := by
    intro r hr
    obtain ⟨i, -, rfl⟩ := List.mem_map.1 hr
    exact h.length i ω
  have hE : EqualErrors ((firstRows d n (x · ω)).real a.useBias) V v (δ₀ * v) := fun j hj k hk =>
    (hn.errors a.useBias hbias j hj k hk).trans (min_le_right _ _)
  have hp : penalty d a.lasso a.ridge V ≤ δ₀ * v := hpen.trans (min_le_right _ _)
  have hs : g.score ≤ δ₀ := hsc.trans (min_le_left _ _)
  refine ⟨fun row j hj => ?_, fun t ht hεt hbig => ?_⟩
  · have := r₂ _ v minimize init fuel a g hwf rfl hsd hcont hlin hv (hE.mono l2) hm hrun hmax hlasso hridge (hp.trans l2) hopt
      (hs.trans (min_le_right _ _)) row j hj
    refine near_truth (N := d) (η := η) (c := if a.useBias then (firstRows d n (x · ω)).intercept V j else 0) hε
      ((Finset.card_filter_le _ _).trans (Finset.card_range _).le) this hη' hη.le ?_ ?_
    · by_cases hb : a.useBias = true
      · rw [if_pos hb]
        exact (hn.constants j hj).trans (min_le_left _ _)
      · rw [if_neg hb, hbias.resolve_left hb j hj, sub_zero, abs_zero]
        exact hη.le
    · intro k hk
      by_cases hb : a.useBias = true
      · rw [if_pos hb, if_pos hb]
        exact (hn.means k (Finset.mem_range.1 (Finset.mem_filter.1 hk).1)).trans (min_le_left _ _)
      · rw [if_neg hb, if_neg hb, sub_zero, abs_zero]
        exact hη.le
  · exact r₁ _ v minimize init fuel a g t hwf rfl hsd hcont hlin hv (hE.mono l1) hm hrun hmax hlasso hridge (hp.trans l1) hopt
      (hs.trans (min_le_left _ _)) ht hεt hbig

/-- **C154**, `DAGRegressor`: almost surely, fitted to tables with sufficiently many of the rows, the last column being the target, it has nearly the true coefficients and
predicts new rows nearly as the true equation does. -/
theorem regressor_eventually_learned {d : ℕ} {V : ℕ → ℕ → ℝ} (hV : AcyclicWeights (d + 1) V) {v ε : ℝ} (hv : 0 < v) (hε : 0 < ε) :
    ∃ δ > 0, ∀ (Ω : Type) (_ : MeasurableSpace Ω) (P : Measure Ω) (b μ : ℕ → ℝ) (x : ℕ → Ω → List ℚ), IsProbabilityMeasure P →
      LinearRows P (d + 1) V b v μ x → ∀ᵐ ω ∂P, ∀ᶠ n in atTop, LearnsRegressor (firstRows (d + 1) n (x · ω)) d V b v μ ε δ := by
  obtain ⟨δ₁, hδ₁, r₁⟩ := fits_recovers hV hε
  obtain ⟨δ₂, hδ₂, r₂⟩ := fits_recovers hV (half_pos hε)
  have hw : 0 < √v := Real.sqrt_pos.2 hv
  let η : ℝ := ε / 2 * √v / (ε / 2 * d + 1)
  have hη : 0 < η := by positivity
  have hη' : η * (ε / 2 * d + 1) ≤ ε / 2 * √v := le_of_eq (div_mul_cancel₀ _ (by positivity))
  let δ₀ : ℝ := min δ₁ δ₂
  have hδ₀ : 0 < δ₀ := lt_min hδ₁ hδ₂
  refine ⟨min δ₀ (δ₀ * v), by positivity, fun Ω _ P b μ x hP h => ?_⟩
  have l1 : δ₀ * v ≤ δ₁ * v := mul_le_mul_of_nonneg_right (min_le_left _ _) hv.le
  have l2 : δ₀ * v ≤ δ₂ * v := mul_le_mul_of_nonneg_right (min_le_right _ _) hv.le
  filter_upwards [settled_eventually h (η := min η (δ₀ * v)) (by positivity)] with ω hω
  filter_upwards [hω] with n hn ext e hp c f q1 q2 q3 hdata q4 q5 q6 q7 q8 q9 hbias q10 q11 q12 q13 hpen hopt hsc
  have hE : EqualErrors ((c.data hp).real e.params.fitIntercept) V v (δ₀ * v) := by
    rw [hdata]
    exact fun j hj k hk => (hn.errors _ hbias j hj k hk).trans (min_le_right _ _)
  have hcols : c.cols.length = d := by
    have : c.cols.length + 1 = d + 1 := congrArg Frame.cols hdata
    omega
  have hp' : penalty (d + 1) e.params.alpha e.params.beta V ≤ δ₀ * v := hpen.trans (min_le_right _ _)
  have hs : f.graph.score ≤ δ₀ := hsc.trans (min_le_left _ _)
  rw [← hdata] at hopt
  refine ⟨(r₁ ext e hp c f v q1 q2 q3 hcols q4 q5 q6 q7 q8 q9 hv (hE.mono l1) q10 q11 q12 q13 (hp'.trans l1) hopt
    (hs.trans (min_le_left _ _))).1, fun isInt Z hZ => ?_⟩
  obtain ⟨ys, hys, hall⟩ := (r₂ ext e hp c f v q1 q2 q3 hcols q4 q5 q6 q7 q8 q9 hv (hE.mono l2) q10 q11 q12 q13 (hp'.trans l2) hopt
    (hs.trans (min_le_right _ _))).2 isInt Z hZ
  refine ⟨ys, hys, hall.imp ?_⟩
  rintro r y ⟨p, rfl, hb⟩
  refine ⟨p, rfl, near_truth (N := d) (η := η) hε (Finset.card_range _).le hb hη' hη.le ?_ ?_⟩
  · rw [hdata]
    by_cases hb : e.params.fitIntercept = true
    · rw [if_pos hb]
      exact (hn.constants d (by omega)).trans (min_le_left _ _)
    · rw [if_neg hb, hbias.resolve_left hb d (by omega), sub_zero, abs_zero]
      exact hη.le
  · intro k hk
    rw [hdata]
    by_cases hb : e.params.fitIntercept = true
    · rw [if_pos hb, if_pos hb]
      exact (hn.means k (by have := Finset.mem_range.1 hk; omega)).trans (min_le_left _ _)
    · rw [if_neg hb, if_neg hb, sub_zero, abs_zero]
      exact hη.le

end Verif.Recover
