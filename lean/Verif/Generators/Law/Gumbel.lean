import Mathlib.MeasureTheory.Constructions.Pi
import Mathlib.MeasureTheory.Integral.IntervalIntegral.Basic
import Mathlib.MeasureTheory.Measure.Lebesgue.Basic
import Mathlib.Analysis.SpecialFunctions.Integrals.Basic
import Mathlib.MeasureTheory.Integral.Prod

/-!
# The largest of independent Gumbel variables (C122)

`np.random.gumbel(scale=s)` and `np.random.logistic(scale=s)` by their documentation, as functions of a uniform number.
-/

namespace Verif.Generators

open MeasureTheory Real Set

/-- The uniform distribution on [0, 1). -/
noncomputable def uniformLaw : Measure ℝ := volume.restrict (Ico 0 1)

/-- The Gumbel distribution with scale `s`: `P(X ≤ x) = exp (-exp (-x / s))` (`gumbelLaw_Iic`). -/
noncomputable def gumbelLaw (s : ℝ) : Measure ℝ := uniformLaw.map fun u => -s * log (-log u)

/-- The logistic distribution with scale `s`. -/
noncomputable def logisticLaw (s : ℝ) : Measure ℝ := uniformLaw.map fun u => s * log (u / (1 - u))

instance : IsProbabilityMeasure uniformLaw := ⟨by simp [uniformLaw]⟩

theorem measurable_gumbel (s : ℝ) : Measurable fun u : ℝ => -s * log (-log u) := by fun_prop
theorem measurable_logistic (s : ℝ) : Measurable fun u : ℝ => s * log (u / (1 - u)) := by fun_prop

instance (s : ℝ) : IsProbabilityMeasure (gumbelLaw s) := Measure.isProbabilityMeasure_map (measurable_gumbel s).aemeasurable
instance (s : ℝ) : IsProbabilityMeasure (logisticLaw s) := Measure.isProbabilityMeasure_map (measurable_logistic s).aemeasurable

theorem uniformLaw_eq : uniformLaw = volume.restrict (Ioo (0 : ℝ) 1) := (restrict_Ioo_eq_restrict_Ico).symm

theorem uniformLaw_Ioo : ∀ᵐ u ∂uniformLaw, u ∈ Ioo (0 : ℝ) 1 := by
  rw [uniformLaw_eq]
  exact ae_restrict_mem measurableSet_Ioo

/-- The probability of being below a number between 0 and 1. -/
theorem uniformLaw_Iic {a : ℝ} (h1 : a ≤ 1) : uniformLaw (Iic a) = ENNReal.ofReal a := by
  rw [uniformLaw, ← restrict_Ioo_eq_restrict_Ico, restrict_Ioo_eq_restrict_Ioc, Measure.restrict_apply measurableSet_Iic]
  have : Iic a ∩ Ioc (0 : ℝ) 1 = Ioc 0 a := by
    ext x
    simp only [mem_inter_iff, mem_Iic, mem_Ioc]
    constructor
    · rintro ⟨h, h', -⟩; exact ⟨h', h⟩
    · rintro ⟨h, h'⟩; exact ⟨h', h, h'.trans h1⟩
  rw [this, Real.volume_Ioc, sub_zero]

theorem uniformLaw_Iio {a : ℝ} (h1 : a ≤ 1) : uniformLaw (Iio a) = ENNReal.ofReal a := by
  rw [uniformLaw, Measure.restrict_apply measurableSet_Iio]
  have : Iio a ∩ Ico (0 : ℝ) 1 = Ico 0 a := by
    ext x
    simp only [mem_inter_iff, mem_Iio, mem_Ico]
    constructor
    · rintro ⟨h, h', -⟩; exact ⟨h', h⟩
    · rintro ⟨h, h'⟩; exact ⟨h', h, h'.trans_le h1⟩
  rw [this, Real.volume_Ico, sub_zero]

theorem gumbel_le_iff {s : ℝ} (hs : 0 < s) {u x : ℝ} (hu : u ∈ Ioo (0 : ℝ) 1) :
    -s * log (-log u) ≤ x ↔ u ≤ exp (-exp (-x / s)) := by
  have h1 : 0 < -log u := by linarith [log_neg hu.1 hu.2]
  rw [← log_le_iff_le_exp hu.1, le_neg, ← le_log_iff_exp_le h1, div_le_iff₀ hs]
  constructor <;> intro h <;> linarith

theorem gumbel_lt_iff {s : ℝ} (hs : 0 < s) {u x : ℝ} (hu : u ∈ Ioo (0 : ℝ) 1) :
    -s * log (-log u) < x ↔ u < exp (-exp (-x / s)) := by
  have h1 : 0 < -log u := by linarith [log_neg hu.1 hu.2]
  rw [← log_lt_iff_lt_exp hu.1, lt_neg, ← lt_log_iff_exp_lt h1, div_lt_iff₀ hs]
  constructor <;> intro h <;> linarith

theorem exp_neg_exp_le (x : ℝ) : exp (-exp x) ≤ 1 := by
  rw [← exp_zero]
  exact exp_le_exp.2 (by linarith [exp_pos x])

/-- The distribution function of the Gumbel distribution. -/
theorem gumbelLaw_Iic {s : ℝ} (hs : 0 < s) (x : ℝ) : gumbelLaw s (Iic x) = ENNReal.ofReal (exp (-exp (-x / s))) := by
  rw [gumbelLaw, Measure.map_apply (measurable_gumbel s) measurableSet_Iic,
    ← uniformLaw_Iic (exp_neg_exp_le _)]
  refine measure_congr ?_
  filter_upwards [uniformLaw_Ioo] with u hu
  exact propext (gumbel_le_iff hs hu)

theorem gumbelLaw_Iio {s : ℝ} (hs : 0 < s) (x : ℝ) : gumbelLaw s (Iio x) = ENNReal.ofReal (exp (-exp (-x / s))) := by
  rw [gumbelLaw, Measure.map_apply (measurable_gumbel s) measurableSet_Iio,
    ← uniformLaw_Iio (exp_neg_exp_le _)]
  refine measure_congr ?_
  filter_upwards [uniformLaw_Ioo] with u hu
  exact propext (gumbel_lt_iff hs hu)

theorem lintegral_pow {R : ℝ} (hR : 0 ≤ R) : ∫⁻ u, ENNReal.ofReal (u ^ R) ∂uniformLaw = ENNReal.ofReal (1 / (R + 1)) := by
  rw [uniformLaw, ← restrict_Ioo_eq_restrict_Ico, restrict_Ioo_eq_restrict_Ioc,
    ← ofReal_integral_eq_lintegral_ofReal]
  · rw [← intervalIntegral.integral_of_le zero_le_one, integral_rpow (Or.inl (by linarith))]
    rw [one_rpow, zero_rpow (by linarith), sub_zero]
  · have := (intervalIntegral.intervalIntegrable_rpow' (a := 0) (b := 1) (r := R) (by linarith))
    rwa [intervalIntegrable_iff_integrableOn_Ioc_of_le zero_le_one] at this
  · filter_upwards [ae_restrict_mem measurableSet_Ioc] with u hu
    exact rpow_nonneg hu.1.le _

section
variable {k : ℕ} (m : Fin (k + 1) → ℝ) (i : Fin (k + 1)) {s : ℝ}

theorem gumbel_prod (u : ℝ) (hu : u ∈ Ioo (0 : ℝ) 1) :
    ∏ c, ENNReal.ofReal (exp (-exp (-(m i - m (i.succAbove c) + -s * log (-log u)) / s))) =
      if s = 0 then ∏ _ : Fin k, ENNReal.ofReal (exp (-1)) else
        ENNReal.ofReal (u ^ (∑ c : Fin k, exp ((m (i.succAbove c) - m i) / s))) := by
  split
  · rename_i h; simp [h]
  rename_i h
  rw [← ENNReal.ofReal_prod_of_nonneg fun _ _ => (exp_pos _).le]
  congr 1
  have h1 : 0 < -log u := by linarith [log_neg hu.1 hu.2]
  rw [rpow_def_of_pos hu.1, Finset.mul_sum, exp_sum]
  refine Finset.prod_congr rfl fun c _ => ?_
  congr 1
  have : -(m i - m (i.succAbove c) + -s * log (-log u)) / s = (m (i.succAbove c) - m i) / s + log (-log u) := by
    field_simp
    ring
  rw [this, exp_add, exp_log h1]
  ring

theorem softmax_eq : 1 / (∑ c : Fin k, exp ((m (i.succAbove c) - m i) / s) + 1) = exp (m i / s) / ∑ c, exp (m c / s) := by
  have h1 : ∑ c, exp (m c / s) = exp (m i / s) * (∑ c : Fin k, exp ((m (i.succAbove c) - m i) / s) + 1) := by
    rw [Fin.sum_univ_succAbove _ i, mul_add, Finset.mul_sum, mul_one, add_comm]
    congr 1
    refine Finset.sum_congr rfl fun c _ => ?_
    rw [← exp_add]
    congr 1
    ring
  have h2 : 0 < ∑ c : Fin k, exp ((m (i.succAbove c) - m i) / s) + 1 := by positivity
  rw [h1]
  have h3 := exp_pos (m i / s)
  field_simp

theorem measurableSet_max_lt :
    MeasurableSet {x : Fin (k + 1) → ℝ | ∀ c, c ≠ i → m c + x c < m i + x i} := by
  have : {x : Fin (k + 1) → ℝ | ∀ c, c ≠ i → m c + x c < m i + x i} = ⋂ c, {x | c ≠ i → m c + x c < m i + x i} := by
    ext x; simp
  rw [this]
  refine MeasurableSet.iInter fun c => ?_
  by_cases hc : c = i
  · simp [hc]
  · simp only [ne_eq, hc, not_false_eq_true, true_imp_iff]
    exact measurableSet_lt (by fun_prop) (by fun_prop)

theorem measurableSet_max_le :
    MeasurableSet {x : Fin (k + 1) → ℝ | ∀ c, m c + x c ≤ m i + x i} := by
  have : {x : Fin (k + 1) → ℝ | ∀ c, m c + x c ≤ m i + x i} = ⋂ c, {x | m c + x c ≤ m i + x i} := by
    ext x; simp
  rw [this]
  exact MeasurableSet.iInter fun c => measurableSet_le (by fun_prop) (by fun_prop)

/-- Independent Gumbel variables with scale `s` around `m`: the probability that number `i` is the largest. -/
theorem gumbel_max_lt (hs : 0 < s) :
    Measure.pi (fun _ : Fin (k + 1) => gumbelLaw s) {x | ∀ c, c ≠ i → m c + x c < m i + x i} =
      ENNReal.ofReal (exp (m i / s) / ∑ c, exp (m c / s)) := by
  have hmeas := measurableSet_max_lt m i
  have hp := (measurePreserving_piFinSuccAbove (fun _ : Fin (k + 1) => gumbelLaw s) i).symm
  rw [← hp.measure_preimage hmeas.nullMeasurableSet, Measure.prod_apply (hp.measurable hmeas)]
  have h1 : ∀ y : ℝ, Prod.mk y ⁻¹' ((MeasurableEquiv.piFinSuccAbove (fun _ => ℝ) i).symm ⁻¹'
      {x : Fin (k + 1) → ℝ | ∀ c, c ≠ i → m c + x c < m i + x i}) =
      Set.pi univ fun c : Fin k => Iio (m i - m (i.succAbove c) + y) := by
    intro y
    ext z
    simp only [mem_preimage, mem_ofPred_eq, mem_univ_pi, mem_Iio, MeasurableEquiv.piFinSuccAbove_symm_apply,
      Fin.insertNthEquiv_apply]
    constructor
    · intro h c
      have := h (i.succAbove c) (Fin.succAbove_ne i c)
      simp only [Fin.insertNth_apply_succAbove, Fin.insertNth_apply_same] at this
      linarith
    · intro h c hc
      obtain ⟨d, rfl⟩ := Fin.exists_succAbove_eq hc
      simp only [Fin.insertNth_apply_succAbove, Fin.insertNth_apply_same]
      linarith [h d]
  simp only [h1, Measure.pi_pi, gumbelLaw_Iio hs]
  rw [gumbelLaw, lintegral_map (by fun_prop) (measurable_gumbel s), ← softmax_eq, ← lintegral_pow (by positivity)]
  refine lintegral_congr_ae ?_
  filter_upwards [uniformLaw_Ioo] with u hu
  rw [gumbel_prod m i u hu, if_neg hs.ne']

theorem gumbel_max_le (hs : 0 < s) :
    Measure.pi (fun _ : Fin (k + 1) => gumbelLaw s) {x | ∀ c, m c + x c ≤ m i + x i} =
      ENNReal.ofReal (exp (m i / s) / ∑ c, exp (m c / s)) := by
  have hmeas := measurableSet_max_le m i
  have hp := (measurePreserving_piFinSuccAbove (fun _ : Fin (k + 1) => gumbelLaw s) i).symm
  rw [← hp.measure_preimage hmeas.nullMeasurableSet, Measure.prod_apply (hp.measurable hmeas)]
  have h1 : ∀ y : ℝ, Prod.mk y ⁻¹' ((MeasurableEquiv.piFinSuccAbove (fun _ => ℝ) i).symm ⁻¹'
      {x : Fin (k + 1) → ℝ | ∀ c, m c + x c ≤ m i + x i}) =
      Set.pi univ fun c : Fin k => Iic (m i - m (i.succAbove c) + y) := by
    intro y
    ext z
    simp only [mem_preimage, mem_ofPred_eq, mem_univ_pi, mem_Iic, MeasurableEquiv.piFinSuccAbove_symm_apply,
      Fin.insertNthEquiv_apply]
    constructor
    · intro h c
      have := h (i.succAbove c)
      simp only [Fin.insertNth_apply_succAbove, Fin.insertNth_apply_same] at this
      linarith
    · intro h c
      by_cases hc : c = i
      · rw [hc]
      obtain ⟨d, rfl⟩ := Fin.exists_succAbove_eq hc
      simp only [Fin.insertNth_apply_succAbove, Fin.insertNth_apply_same]
      linarith [h d]
  simp only [h1, Measure.pi_pi, gumbelLaw_Iic hs]
  rw [gumbelLaw, lintegral_map (by fun_prop) (measurable_gumbel s), ← softmax_eq, ← lintegral_pow (by positivity)]
  refine lintegral_congr_ae ?_
  filter_upwards [uniformLaw_Ioo] with u hu
  rw [gumbel_prod m i u hu, if_neg hs.ne']

end

end Verif.Generators
