import Mathlib.Probability.StrongLaw
import Mathlib.Probability.Independence.InfinitePi
import Mathlib.MeasureTheory.Function.ConvergenceInMeasure

/-!
# Mean products of independent noise (C126)

For independent numbers with mean 0 and variance `v` the mean products of columns are close to `v` times the identity, with a
probability that tends to 1 with the number of rows.
-/

namespace Verif.Simulate

open MeasureTheory ProbabilityTheory Filter Topology

/-- Up to `δ`, the columns of the table `Z` are uncorrelated and have mean square `v`. -/
def Near {ι : Type} [DecidableEq ι] (n : ℕ) (v δ : ℝ) (Z : ι → ℕ → ℝ) : Prop :=
  ∀ j k, |(∑ r ∈ Finset.range n, Z j r * Z k r) / n - if j = k then v else 0| ≤ δ

section
variable {ι : Type} [Fintype ι] [DecidableEq ι] {L : Measure ℝ} [IsProbabilityMeasure L]

/-- The law of large numbers, on the space of all tables. -/
theorem near_tendsto (h2 : Integrable (fun x => x ^ 2) L) (h0 : ∫ x, x ∂L = 0) {δ : ℝ} (hδ : 0 < δ) :
    Tendsto (fun n => Measure.infinitePi (fun _ : ι × ℕ => L) {Z | ¬ Near n (∫ x, x ^ 2 ∂L) δ fun j r => Z (j, r)}) atTop (𝓝 0) := by
  let μ : Measure (ι × ℕ → ℝ) := Measure.infinitePi fun _ : ι × ℕ => L
  have hL1 : Integrable (fun x : ℝ => x) L := by
    have : MemLp (fun x : ℝ => x) 2 L := (memLp_two_iff_integrable_sq measurable_id.aestronglyMeasurable).2 h2
    exact this.integrable (by norm_num)
  have hind : iIndepFun (fun (i : ι × ℕ) (Z : ι × ℕ → ℝ) => Z i) μ :=
    iIndepFun_infinitePi (P := fun _ : ι × ℕ => L) (X := fun _ x => x) fun _ => measurable_id
  have hmeas : ∀ i : ι × ℕ, Measurable fun Z : ι × ℕ → ℝ => Z i := fun i => measurable_pi_apply i
  have hlaw : ∀ i : ι × ℕ, μ.map (fun Z : ι × ℕ → ℝ => Z i) = L := fun i => Measure.infinitePi_map_eval _ i
  have hident : ∀ i i' : ι × ℕ, IdentDistrib (fun Z : ι × ℕ → ℝ => Z i) (fun Z => Z i') μ μ := fun i i' =>
    ⟨(hmeas i).aemeasurable, (hmeas i').aemeasurable, by rw [hlaw, hlaw]⟩
  have hint : ∀ i : ι × ℕ, Integrable (fun Z : ι × ℕ → ℝ => Z i) μ := fun i => by
    have : Integrable (fun x : ℝ => x) (μ.map fun Z : ι × ℕ → ℝ => Z i) := by rw [hlaw]; exact hL1
    exact this.comp_measurable (hmeas i)
  have hmean : ∀ i : ι × ℕ, ∫ Z, Z i ∂μ = 0 := fun i => by
    rw [← h0, ← hlaw i]
    exact (integral_map (f := fun x : ℝ => x) (hmeas i).aemeasurable measurable_id.aestronglyMeasurable).symm
  have key : ∀ j k : ι, TendstoInMeasure μ (fun (n : ℕ) Z => (∑ r ∈ Finset.range n, Z (j, r) * Z (k, r)) / n) atTop
      fun _ => if j = k then ∫ x, x ^ 2 ∂L else 0 := by
    intro j k
    have hint' : Integrable (fun Z : ι × ℕ → ℝ => Z (j, 0) * Z (k, 0)) μ ∧
        ∫ Z, Z (j, 0) * Z (k, 0) ∂μ = if j = k then ∫ x, x ^ 2 ∂L else 0 := by
      by_cases hjk : j = k
      · subst hjk
        rw [if_pos rfl]
        have h1 : Integrable (fun x : ℝ => x ^ 2) (μ.map fun Z : ι × ℕ → ℝ => Z (j, 0)) := by rw [hlaw]; exact h2
        refine ⟨?_, ?_⟩
        · simp only [← sq]
          exact h1.comp_measurable (hmeas (j, 0))
        · simp only [← sq]
          rw [← hlaw (j, 0)]
          exact (integral_map (f := fun x : ℝ => x ^ 2) (hmeas (j, 0)).aemeasurable
            (measurable_id.pow_const 2).aestronglyMeasurable).symm
      · rw [if_neg hjk]
        have hi : IndepFun (fun Z : ι × ℕ → ℝ => Z (j, 0)) (fun Z => Z (k, 0)) μ := hind.indepFun (by simp [hjk])
        refine ⟨hi.integrable_mul (hint _) (hint _), ?_⟩
        rw [hi.integral_fun_mul_eq_mul_integral (hmeas _).aestronglyMeasurable (hmeas _).aestronglyMeasurable, hmean, zero_mul]
    have hid : ∀ r : ℕ, IdentDistrib (fun Z : ι × ℕ → ℝ => Z (j, r) * Z (k, r)) (fun Z => Z (j, 0) * Z (k, 0)) μ μ := by
      intro r
      by_cases hjk : j = k
      · subst hjk
        exact (hident (j, r) (j, 0)).comp (measurable_id.mul measurable_id)
      · have hp : IdentDistrib (fun Z : ι × ℕ → ℝ => (Z (j, r), Z (k, r))) (fun Z => (Z (j, 0), Z (k, 0))) μ μ := by
          refine ⟨((hmeas _).prodMk (hmeas _)).aemeasurable, ((hmeas _).prodMk (hmeas _)).aemeasurable, ?_⟩
          rw [(indepFun_iff_map_prod_eq_prod_map_map (hmeas _).aemeasurable (hmeas _).aemeasurable).1
              (hind.indepFun (show (j, r) ≠ (k, r) by simp [hjk])),
            (indepFun_iff_map_prod_eq_prod_map_map (hmeas _).aemeasurable (hmeas _).aemeasurable).1
              (hind.indepFun (show (j, 0) ≠ (k, 0) by simp [hjk])), hlaw, hlaw, hlaw, hlaw]
        exact hp.comp (u := fun p : ℝ × ℝ => p.1 * p.2) (measurable_fst.mul measurable_snd)
    have hpw : Pairwise fun r r' : ℕ => IndepFun (fun Z : ι × ℕ → ℝ => Z (j, r) * Z (k, r)) (fun Z => Z (j, r') * Z (k, r')) μ := by
      intro r r' hrr
      have := hind.indepFun_prodMk_prodMk hmeas (j, r) (k, r) (j, r') (k, r') (by simp [hrr]) (by simp [hrr]) (by simp [hrr])
        (by simp [hrr])
      exact this.comp (φ := fun p : ℝ × ℝ => p.1 * p.2) (ψ := fun p : ℝ × ℝ => p.1 * p.2) (measurable_fst.mul measurable_snd)
        (measurable_fst.mul measurable_snd)
    have hs := strong_law_ae_real (μ := μ) (fun (r : ℕ) (Z : ι × ℕ → ℝ) => Z (j, r) * Z (k, r)) hint'.1 hpw hid
    rw [hint'.2] at hs
    refine tendstoInMeasure_of_tendsto_ae (fun n => ?_) hs
    exact ((Finset.measurable_sum _ fun r _ => (hmeas (j, r)).mul (hmeas (k, r))).div_const _).aestronglyMeasurable
  have hsum : Tendsto (fun n : ℕ => ∑ j : ι, ∑ k : ι, μ {Z | ENNReal.ofReal δ ≤ edist ((∑ r ∈ Finset.range n, Z (j, r) * Z (k, r)) / n)
      (if j = k then ∫ x, x ^ 2 ∂L else 0)}) atTop (𝓝 0) := by
    rw [show (0 : ENNReal) = ∑ j : ι, ∑ k : ι, 0 by simp]
    exact tendsto_finset_sum _ fun j _ => tendsto_finset_sum _ fun k _ => key j k _ (ENNReal.ofReal_pos.2 hδ)
  refine tendsto_of_tendsto_of_tendsto_of_le_of_le tendsto_const_nhds hsum (fun _ => zero_le) fun n => ?_
  have hsub : {Z : ι × ℕ → ℝ | ¬ Near n (∫ x, x ^ 2 ∂L) δ fun j r => Z (j, r)} ⊆
      ⋃ j : ι, ⋃ k : ι, {Z | ENNReal.ofReal δ ≤ edist ((∑ r ∈ Finset.range n, Z (j, r) * Z (k, r)) / n)
        (if j = k then ∫ x, x ^ 2 ∂L else 0)} := by
    intro Z hZ
    change ¬ Near n _ δ _ at hZ
    unfold Near at hZ
    push Not at hZ
    obtain ⟨j, k, hjk⟩ := hZ
    refine Set.mem_iUnion.2 ⟨j, Set.mem_iUnion.2 ⟨k, ?_⟩⟩
    change ENNReal.ofReal δ ≤ _
    rw [edist_dist, Real.dist_eq]
    exact ENNReal.ofReal_le_ofReal hjk.le
  calc μ {Z : ι × ℕ → ℝ | ¬ Near n (∫ x, x ^ 2 ∂L) δ fun j r => Z (j, r)}
      ≤ μ (⋃ j : ι, ⋃ k : ι, {Z | ENNReal.ofReal δ ≤ edist ((∑ r ∈ Finset.range n, Z (j, r) * Z (k, r)) / n)
        (if j = k then ∫ x, x ^ 2 ∂L else 0)}) := measure_mono hsub
    _ ≤ _ := (measure_iUnion_fintype_le _ _).trans (Finset.sum_le_sum fun j _ => measure_iUnion_fintype_le _ _)

theorem measurableSet_near (n : ℕ) (v δ : ℝ) :
    MeasurableSet {Z : ι × Fin n → ℝ | Near n v δ fun j r => if h : r < n then Z (j, ⟨r, h⟩) else 0} := by
  have : {Z : ι × Fin n → ℝ | Near n v δ fun j r => if h : r < n then Z (j, ⟨r, h⟩) else 0} =
      ⋂ j : ι, ⋂ k : ι, {Z | |(∑ r : Fin n, Z (j, r) * Z (k, r)) / n - if j = k then v else 0| ≤ δ} := by
    ext Z
    simp only [Set.mem_iInter]
    refine forall_congr' fun j => forall_congr' fun k => ?_
    change _ ≤ δ ↔ _ ≤ δ
    rw [Finset.sum_range]
    simp
  rw [this]
  refine MeasurableSet.iInter fun j => MeasurableSet.iInter fun k => ?_
  have hm : Measurable fun Z : ι × Fin n → ℝ => |(∑ r : Fin n, Z (j, r) * Z (k, r)) / n - if j = k then v else 0| :=
    continuous_abs.measurable.comp
      (((Finset.measurable_sum _ fun r _ => (measurable_pi_apply (j, r)).mul (measurable_pi_apply (k, r))).div_const _).sub_const _)
  exact measurableSet_le hm measurable_const

/-- For all probability spaces: with enough rows, the mean products are as expected, with a probability as large as desired. -/
theorem near_of_rows (h2 : Integrable (fun x => x ^ 2) L) (h0 : ∫ x, x ∂L = 0) {δ : ℝ} (hδ : 0 < δ) {p : ENNReal} (hp : 0 < p) :
    ∃ n₀ : ℕ, ∀ n ≥ n₀, ∀ (Ω : Type) [MeasurableSpace Ω] (P : Measure Ω) [IsProbabilityMeasure P] (Z : ι × Fin n → Ω → ℝ),
      (∀ i, Measurable (Z i)) → (∀ i, P.map (Z i) = L) → iIndepFun Z P →
      1 - p ≤ P {ω | Near n (∫ x, x ^ 2 ∂L) δ fun j r => if h : r < n then Z (j, ⟨r, h⟩) ω else 0} := by
  obtain ⟨n₀, hn₀⟩ := Filter.eventually_atTop.1 ((near_tendsto (ι := ι) h2 h0 hδ).eventually (ge_mem_nhds hp))
  refine ⟨n₀, fun n hn Ω _ P _ Z hZ hlaw hind => ?_⟩
  let S : Set (ι × Fin n → ℝ) := {Z | Near n (∫ x, x ^ 2 ∂L) δ fun j r => if h : r < n then Z (j, ⟨r, h⟩) else 0}
  have hS : MeasurableSet S := measurableSet_near n _ δ
  have h1 : P {ω | Near n (∫ x, x ^ 2 ∂L) δ fun j r => if h : r < n then Z (j, ⟨r, h⟩) ω else 0} =
      Measure.pi (fun _ : ι × Fin n => L) S := by
    have h3 := (iIndepFun_iff_map_fun_eq_pi_map (fun i => (hZ i).aemeasurable)).1 hind
    rw [show (fun i => P.map (Z i)) = fun _ => L from funext hlaw] at h3
    rw [← h3, Measure.map_apply (measurable_pi_lambda _ hZ) hS]
    rfl
  let μ : Measure (ι × ℕ → ℝ) := Measure.infinitePi fun _ : ι × ℕ => L
  let f : ι × Fin n → ι × ℕ := fun i => (i.1, i.2)
  have hf : Function.Injective f := by
    rintro ⟨a, b⟩ ⟨c, d⟩ h
    obtain ⟨h1, h2⟩ := Prod.mk.inj h
    exact Prod.ext h1 (Fin.ext h2)
  have h4 : μ {Z | Near n (∫ x, x ^ 2 ∂L) δ fun j r => Z (j, r)} = Measure.pi (fun _ : ι × Fin n => L) S := by
    have h5 : μ.map (fun Z i => Z (f i)) = Measure.pi fun _ : ι × Fin n => L := by
      have h6 : iIndepFun (fun (i : ι × Fin n) (Z : ι × ℕ → ℝ) => Z (f i)) μ :=
        (iIndepFun_infinitePi (P := fun _ : ι × ℕ => L) (X := fun _ x => x) fun _ => measurable_id).precomp hf
      rw [(iIndepFun_iff_map_fun_eq_pi_map (fun i => (measurable_pi_apply (f i)).aemeasurable)).1 h6]
      congr 1
      funext i
      exact Measure.infinitePi_map_eval _ _
    rw [← h5, Measure.map_apply (measurable_pi_lambda _ fun i => measurable_pi_apply (f i)) hS]
    congr 1
    ext Z
    refine forall_congr' fun j => forall_congr' fun k => ?_
    rw [Finset.sum_congr rfl fun r hr => ?_]
    simp only [dif_pos (Finset.mem_range.1 hr)]
    rfl
  rw [h1, ← h4]
  have h7 : MeasurableSet {Z : ι × ℕ → ℝ | Near n (∫ x, x ^ 2 ∂L) δ fun j r => Z (j, r)} := by
    have : {Z : ι × ℕ → ℝ | Near n (∫ x, x ^ 2 ∂L) δ fun j r => Z (j, r)} = (fun (Z : ι × ℕ → ℝ) i => Z (f i)) ⁻¹' S := by
      ext Z
      refine forall_congr' fun j => forall_congr' fun k => ?_
      rw [Finset.sum_congr rfl fun r hr => ?_]
      simp only [dif_pos (Finset.mem_range.1 hr)]
      rfl
    rw [this]
    exact hS.preimage (measurable_pi_lambda _ fun i => measurable_pi_apply (f i))
  have h8 := hn₀ n hn
  have h9 : μ {Z : ι × ℕ → ℝ | Near n (∫ x, x ^ 2 ∂L) δ fun j r => Z (j, r)}ᶜ ≤ p := h8
  have h10 := prob_add_prob_compl (μ := μ) h7
  rw [← h10]
  exact tsub_le_iff_right.2 (by gcongr)

end

end Verif.Simulate
