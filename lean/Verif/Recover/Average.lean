import Mathlib.Probability.StrongLaw
import Mathlib.Probability.Moments.Variance
import Mathlib.Probability.Independence.Integration
import Verif.Notears.PropsIdentify

/-!
# Averages of products of errors in independent rows
-/

namespace Verif.Recover

open MeasureTheory ProbabilityTheory Verif.Notears

/-- Chebyshev's inequality for an average. -/
theorem average_close {Ω : Type} [MeasurableSpace Ω] {P : Measure Ω} [IsProbabilityMeasure P] {n : ℕ} (hn : 0 < n) {Y : Fin n → Ω → ℝ}
    (hL : ∀ i, MemLp (Y i) 2 P) (hind : Pairwise fun i j => Y i ⟂ᵢ[P] Y j) {m K : ℝ} (hm : ∀ i, ∫ ω, Y i ω ∂P = m)
    (hK : ∀ i, ∫ ω, Y i ω ^ 2 ∂P ≤ K) {δ : ℝ} (hδ : 0 < δ) :
    P {ω | δ < |(∑ i, Y i ω) / n - m|} ≤ ENNReal.ofReal (K / (n * δ ^ 2)) := by
  let Z : Ω → ℝ := ∑ i, Y i
  have hZL : MemLp Z 2 P := memLp_finsetSum' _ fun i _ => hL i
  have hZ : ∀ ω, Z ω = ∑ i, Y i ω := fun ω => Finset.sum_apply ω _ _
  have hZE : ∫ ω, Z ω ∂P = n * m := by
    simp only [hZ]
    rw [integral_finsetSum _ fun i _ => (hL i).integrable (by norm_num)]
    simp [hm]
  have hVar : variance Z P ≤ n * K := by
    change variance (∑ i, Y i) P ≤ _
    rw [IndepFun.variance_sum (fun i _ => hL i) (fun i _ j _ hij => hind hij)]
    have h1 : ∀ i ∈ (Finset.univ : Finset (Fin n)), variance (Y i) P ≤ K := fun i _ =>
      (variance_le_expectation_sq (hL i).1).trans (by simpa using hK i)
    refine (Finset.sum_le_sum h1).trans ?_
    simp
  have hn' : (0 : ℝ) < n := by exact_mod_cast hn
  have hch := meas_ge_le_variance_div_sq hZL (c := n * δ) (by positivity)
  rw [hZE] at hch
  refine (measure_mono ?_).trans (hch.trans (ENNReal.ofReal_le_ofReal ?_))
  · intro ω hω
    change n * δ ≤ |Z ω - n * m|
    have h1 : δ < |(∑ i, Y i ω) / n - m| := hω
    rw [← hZ] at h1
    rw [show Z ω - n * m = n * (Z ω / n - m) by field_simp, abs_mul, abs_of_pos hn']
    exact mul_le_mul_of_nonneg_left h1.le hn'.le
  · rw [div_le_div_iff₀ (by positivity) (by positivity)]
    nlinarith [mul_le_mul_of_nonneg_right hVar (show 0 ≤ n * δ ^ 2 by positivity)]

/-- The data `X ω` have `n` rows, and `ξ i j ω` is the error of the linear equation for column `j` in row `i`. -/
structure HasErrors {Ω : Type} (n d : ℕ) (V : ℕ → ℕ → ℝ) (ξ : ℕ → ℕ → Ω → ℝ) (X : Ω → Data ℝ) : Prop where
  rows : ∀ ω, (X ω).rows = n
  cols : ∀ ω, (X ω).cols = d
  errors : ∀ ω, ∀ i < n, ∀ j < d, (X ω).residual V i j = ξ i j ω

theorem HasErrors.product {Ω : Type} {n d : ℕ} {V : ℕ → ℕ → ℝ} {ξ : ℕ → ℕ → Ω → ℝ} {X : Ω → Data ℝ} (h : HasErrors n d V ξ X)
    {j k : ℕ} (hj : j < d) (hk : k < d) (ω : Ω) :
    (X ω).residualProduct V j k = (∑ i ∈ Finset.range n, ξ i j ω * ξ i k ω) / n := by
  unfold Data.residualProduct
  rw [h.rows ω]
  congr 1
  refine Finset.sum_congr rfl fun i hi => ?_
  rw [h.errors ω i (Finset.mem_range.1 hi) j hj, h.errors ω i (Finset.mem_range.1 hi) k hk]

/-- In finitely many rows: the errors are nearly uncorrelated and of equal size, with a probability that is explicitly bounded. -/
theorem equalErrors_likely {Ω : Type} [MeasurableSpace Ω] {P : Measure Ω} [IsProbabilityMeasure P] {n d : ℕ} (hn : 0 < n) {V : ℕ → ℕ → ℝ}
    {ξ : ℕ → ℕ → Ω → ℝ} {X : Ω → Data ℝ} (hX : HasErrors n d V ξ X) {v K : ℝ}
    (hL : ∀ i < n, ∀ j < d, ∀ k < d, MemLp (fun ω => ξ i j ω * ξ i k ω) 2 P)
    (hind : ∀ i < n, ∀ i' < n, i ≠ i' → ∀ j < d, ∀ k < d, (fun ω => ξ i j ω * ξ i k ω) ⟂ᵢ[P] (fun ω => ξ i' j ω * ξ i' k ω))
    (hm : ∀ i < n, ∀ j < d, ∀ k < d, ∫ ω, ξ i j ω * ξ i k ω ∂P = if j = k then v else 0)
    (hK : ∀ i < n, ∀ j < d, ∀ k < d, ∫ ω, (ξ i j ω * ξ i k ω) ^ 2 ∂P ≤ K) {δ : ℝ} (hδ : 0 < δ) :
    P {ω | ¬ EqualErrors (X ω) V v δ} ≤ ENNReal.ofReal (d ^ 2 * K / (n * δ ^ 2)) := by
  let S : Fin d × Fin d → Set Ω := fun p =>
    {ω | δ < |(∑ i : Fin n, ξ i p.1 ω * ξ i p.2 ω) / n - if (p.1 : ℕ) = p.2 then v else 0|}
  have hsub : {ω | ¬ EqualErrors (X ω) V v δ} ⊆ ⋃ p, S p := by
    intro ω hω
    change ¬ EqualErrors (X ω) V v δ at hω
    unfold EqualErrors at hω
    push Not at hω
    obtain ⟨j, hj, k, hk, h⟩ := hω
    rw [hX.cols] at hj hk
    refine Set.mem_iUnion.2 ⟨(⟨j, hj⟩, ⟨k, hk⟩), ?_⟩
    change δ < |_|
    rw [hX.product hj hk, Finset.sum_range] at h
    exact h
  have hp : ∀ p, P (S p) ≤ ENNReal.ofReal (K / (n * δ ^ 2)) := fun p =>
    average_close hn (fun i => hL i i.2 p.1 p.1.2 p.2 p.2.2)
      (fun i j hij => hind i i.2 j j.2 (fun h => hij (Fin.ext h)) p.1 p.1.2 p.2 p.2.2)
      (fun i => hm i i.2 p.1 p.1.2 p.2 p.2.2) (fun i => hK i i.2 p.1 p.1.2 p.2 p.2.2) hδ
  refine (measure_mono hsub).trans ((measure_iUnion_le _).trans ?_)
  rw [tsum_fintype]
  refine (Finset.sum_le_sum fun p _ => hp p).trans ?_
  rw [Finset.sum_const, Finset.card_univ, Fintype.card_prod, Fintype.card_fin, nsmul_eq_mul]
  rw [← ENNReal.ofReal_natCast, ← ENNReal.ofReal_mul (by positivity)]
  refine ENNReal.ofReal_le_ofReal (le_of_eq ?_)
  push_cast
  ring

/-- In growing data with independent rows of the same distribution: almost surely, the errors are nearly uncorrelated and of equal
size in all data with enough rows. -/
theorem equalErrors_eventually {Ω : Type} [MeasurableSpace Ω] {P : Measure Ω} {d : ℕ} {V : ℕ → ℕ → ℝ}
    {ξ : ℕ → ℕ → Ω → ℝ} {X : ℕ → Ω → Data ℝ} (hX : ∀ n, HasErrors n d V ξ (X n)) {v : ℝ}
    (hL : ∀ j < d, ∀ k < d, Integrable (fun ω => ξ 0 j ω * ξ 0 k ω) P)
    (hind : ∀ i i', i ≠ i' → ∀ j < d, ∀ k < d, (fun ω => ξ i j ω * ξ i k ω) ⟂ᵢ[P] (fun ω => ξ i' j ω * ξ i' k ω))
    (hid : ∀ i, ∀ j < d, ∀ k < d, IdentDistrib (fun ω => ξ i j ω * ξ i k ω) (fun ω => ξ 0 j ω * ξ 0 k ω) P P)
    (hm : ∀ j < d, ∀ k < d, ∫ ω, ξ 0 j ω * ξ 0 k ω ∂P = if j = k then v else 0) {δ : ℝ} (hδ : 0 < δ) :
    ∀ᵐ ω ∂P, ∀ᶠ n in Filter.atTop, EqualErrors (X n ω) V v δ := by
  have h1 : ∀ p : Fin d × Fin d, ∀ᵐ ω ∂P, Filter.Tendsto (fun n : ℕ => (∑ i ∈ Finset.range n, ξ i p.1 ω * ξ i p.2 ω) / n)
      Filter.atTop (nhds (if (p.1 : ℕ) = p.2 then v else 0)) := by
    intro p
    have := strong_law_ae_real (fun i ω => ξ i p.1 ω * ξ i p.2 ω) (hL p.1 p.1.2 p.2 p.2.2)
      (fun i i' h => hind i i' h p.1 p.1.2 p.2 p.2.2) (fun i => hid i p.1 p.1.2 p.2 p.2.2)
    rwa [hm p.1 p.1.2 p.2 p.2.2] at this
  filter_upwards [MeasureTheory.ae_all_iff.2 h1] with ω hω
  have h2 : ∀ p : Fin d × Fin d, ∀ᶠ n : ℕ in Filter.atTop,
      |(∑ i ∈ Finset.range n, ξ i p.1 ω * ξ i p.2 ω) / n - if (p.1 : ℕ) = p.2 then v else 0| < δ := fun p => by
    have := Metric.tendsto_nhds.1 (hω p) δ hδ
    simpa [Real.dist_eq] using this
  filter_upwards [Filter.eventually_all.2 h2] with n hn
  intro j hj k hk
  rw [(hX n).cols] at hj hk
  rw [(hX n).product hj hk]
  exact (hn (⟨j, hj⟩, ⟨k, hk⟩)).le

end Verif.Recover
