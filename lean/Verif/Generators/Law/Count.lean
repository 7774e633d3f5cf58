import Verif.Generators.Law.Gumbel
import Verif.Generators.SemSpec

/-!
# The law of a count (C122)
-/

namespace Verif.Generators

open MeasureTheory Real Set

/-- The Poisson distribution with all that is above 5000 moved to 5000. -/
noncomputable def truncatedPoisson (rate : ℝ) (j : ℕ) : ℝ :=
  if j < 5000 then exp (-rate) * rate ^ j / (j.factorial : ℝ)
  else if j = 5000 then 1 - ∑ i ∈ Finset.range 5000, exp (-rate) * rate ^ i / (i.factorial : ℝ)
  else 0

/-- The rate for the mean `x`: `exp x` below 0, `x` from 0 on. -/
noncomputable def rateOf (x : ℝ) : ℝ := if x < 0 then exp x else x

/-- The probability of the count `j` for a variable with mean `x`: zero with probability `p`, otherwise Poisson; for a variable
without parents a uniform number is added to the mean. -/
noncomputable def countProb (p : ℝ) (root : Prop) [Decidable root] (x : ℝ) (j : ℕ) : ℝ :=
  (if j = 0 then p else 0) +
    (1 - p) * if root then ∫ e in (0 : ℝ)..1, truncatedPoisson (rateOf (x + e)) j else truncatedPoisson (rateOf x) j

theorem poissonCdf_eq_sum (rate : ℝ) (k : ℕ) :
    poissonCdf rate k = ∑ i ∈ Finset.range (k + 1), exp (-rate) * rate ^ i / (i.factorial : ℝ) := by
  induction k with
  | zero => simp [poissonCdf]
  | succ k ih => rw [poissonCdf_succ, ih, ← Finset.sum_range_succ]

theorem poissonCdf_le_one {rate : ℝ} (h : 0 ≤ rate) (k : ℕ) : poissonCdf rate k ≤ 1 := by
  rw [poissonCdf_eq_sum]
  have h1 := Real.sum_le_exp_of_nonneg h (k + 1)
  have h2 : ∑ i ∈ Finset.range (k + 1), exp (-rate) * rate ^ i / (i.factorial : ℝ) =
      exp (-rate) * ∑ i ∈ Finset.range (k + 1), rate ^ i / (i.factorial : ℝ) := by
    rw [Finset.mul_sum]
    exact Finset.sum_congr rfl fun i _ => by ring
  rw [h2]
  calc exp (-rate) * _ ≤ exp (-rate) * exp rate := mul_le_mul_of_nonneg_left h1 (exp_pos _).le
    _ = 1 := by rw [← exp_add]; simp

theorem uniformLaw_Ici {a : ℝ} (h0 : 0 ≤ a) (h1 : a ≤ 1) : uniformLaw (Ici a) = ENNReal.ofReal (1 - a) := by
  rw [← compl_Iio, prob_compl_eq_one_sub measurableSet_Iio, uniformLaw_Iio h1, ENNReal.ofReal_sub _ h0, ENNReal.ofReal_one]

theorem uniformLaw_Ico {a b : ℝ} (h0 : 0 ≤ a) (hab : a ≤ b) (h1 : b ≤ 1) : uniformLaw (Ico a b) = ENNReal.ofReal (b - a) := by
  rw [uniformLaw, Measure.restrict_apply measurableSet_Ico, inter_eq_left.2 (Ico_subset_Ico h0 h1), Real.volume_Ico]

/-- The law of the Poisson quantile of a uniform number. -/
theorem poissonQuantile_law {rate : ℝ} (h : 0 ≤ rate) (j : ℕ) :
    uniformLaw {u | PoissonQuantile rate u j} = ENNReal.ofReal (truncatedPoisson rate j) := by
  rcases lt_trichotomy j 5000 with hj | rfl | hj
  · rw [truncatedPoisson, if_pos hj]
    rcases j with _ | j
    · have : {u | PoissonQuantile rate u 0} = Iio (poissonCdf rate 0) := by
        ext u; simp [PoissonQuantile]
      rw [this, uniformLaw_Iio (poissonCdf_le_one h 0)]
      simp [poissonCdf]
    · have : {u | PoissonQuantile rate u (j + 1)} = Ico (poissonCdf rate j) (poissonCdf rate (j + 1)) := by
        ext u
        constructor
        · rintro ⟨h1, -, h3⟩; exact ⟨h1 j (by omega), h3 hj⟩
        · rintro ⟨h1, h2⟩
          exact ⟨fun i hi => (poissonCdf_mono h (by omega : i ≤ j)).trans h1, hj.le, fun _ => h2⟩
      rw [this, uniformLaw_Ico (poissonCdf_pos h j).le (poissonCdf_mono h (Nat.le_succ j)) (poissonCdf_le_one h _), poissonCdf_succ,
        add_sub_cancel_left]
  · rw [truncatedPoisson, if_neg (lt_irrefl _), if_pos rfl, ← poissonCdf_eq_sum rate 4999]
    have : {u | PoissonQuantile rate u 5000} = Ici (poissonCdf rate 4999) := by
      ext u
      constructor
      · rintro ⟨h1, -⟩; exact h1 4999 (by omega)
      · intro h1
        exact ⟨fun i hi => (poissonCdf_mono h (by omega : i ≤ 4999)).trans h1, le_rfl, fun h => absurd h (lt_irrefl _)⟩
    rw [this, uniformLaw_Ici (poissonCdf_pos h _).le (poissonCdf_le_one h _)]
  · rw [truncatedPoisson, if_neg (by omega), if_neg (by omega)]
    have : {u | PoissonQuantile rate u j} = ∅ := by
      ext u
      simp only [mem_empty_iff_false, iff_false]
      rintro ⟨-, h2, -⟩
      omega
    simp [this]

theorem rateOf_nonneg (x : ℝ) : 0 ≤ rateOf x := by
  unfold rateOf
  split
  · exact (exp_pos _).le
  · linarith

theorem measurable_rateOf : Measurable rateOf := by
  unfold rateOf
  exact Measurable.ite measurableSet_Iio measurable_exp measurable_id

theorem truncatedPoisson_nonneg {rate : ℝ} (h : 0 ≤ rate) (j : ℕ) : 0 ≤ truncatedPoisson rate j := by
  unfold truncatedPoisson
  split
  · positivity
  · split
    · rw [← poissonCdf_eq_sum rate 4999]; linarith [poissonCdf_le_one h 4999]
    · exact le_rfl

theorem truncatedPoisson_le_one {rate : ℝ} (h : 0 ≤ rate) (j : ℕ) : truncatedPoisson rate j ≤ 1 := by
  have h1 := poissonQuantile_law h j
  have h2 : uniformLaw {u | PoissonQuantile rate u j} ≤ 1 := prob_le_one
  rw [h1] at h2
  exact ENNReal.ofReal_le_one.1 h2

theorem measurable_truncatedPoisson (j : ℕ) : Measurable fun r => truncatedPoisson r j := by
  unfold truncatedPoisson
  split
  · fun_prop
  · split
    · fun_prop
    · fun_prop

/-- The draws `(e, z, u)` for which the count is `j`. -/
def countEvent (p : ℝ) (root : Prop) [Decidable root] (x : ℝ) (j : ℕ) : Set (ℝ × ℝ × ℝ) :=
  {d | if d.2.1 < p then j = 0 else PoissonQuantile (rateOf (if root then x + d.1 else x)) d.2.2 j}

theorem measurable_poissonCdf (i : ℕ) : Measurable fun r => poissonCdf r i := by
  simp only [poissonCdf_eq_sum]
  fun_prop

theorem measurableSet_poissonQuantile {α : Type} [MeasurableSpace α] {f h : α → ℝ} (hf : Measurable f) (hh : Measurable h) (j : ℕ) :
    MeasurableSet {d | PoissonQuantile (f d) (h d) j} := by
  have h1 : {d | PoissonQuantile (f d) (h d) j} = (⋂ i, ⋂ (_ : i < j), {d | poissonCdf (f d) i ≤ h d}) ∩ ({_d | j ≤ 5000} ∩
      ({_d | ¬ j < 5000} ∪ {d | h d < poissonCdf (f d) j})) := by
    ext d
    simp [PoissonQuantile, imp_iff_not_or]
  rw [h1]
  exact (MeasurableSet.iInter fun i => MeasurableSet.iInter fun _ => measurableSet_le ((measurable_poissonCdf i).comp hf) hh).inter
    ((MeasurableSet.const _).inter ((MeasurableSet.const _).union (measurableSet_lt hh ((measurable_poissonCdf j).comp hf))))

theorem measurableSet_countEvent (p : ℝ) (root : Prop) [Decidable root] (x : ℝ) (j : ℕ) : MeasurableSet (countEvent p root x j) := by
  have hr : Measurable fun d : ℝ × ℝ × ℝ => rateOf (if root then x + d.1 else x) := by
    refine measurable_rateOf.comp ?_
    split <;> fun_prop
  have h1 : MeasurableSet {d : ℝ × ℝ × ℝ | d.2.1 < p} := measurableSet_lt (by fun_prop) measurable_const
  have h2 := measurableSet_poissonQuantile hr (by fun_prop : Measurable fun d : ℝ × ℝ × ℝ => d.2.2) j
  have h3 : countEvent p root x j = ({d : ℝ × ℝ × ℝ | d.2.1 < p} ∩ {_d | j = 0}) ∪ ({d : ℝ × ℝ × ℝ | d.2.1 < p}ᶜ ∩
      {d : ℝ × ℝ × ℝ | PoissonQuantile (rateOf (if root then x + d.1 else x)) d.2.2 j}) := by
    ext d
    by_cases h : d.2.1 < p <;> simp [countEvent, h]
  rw [h3]
  exact (h1.inter (MeasurableSet.const _)).union (h1.compl.inter h2)

theorem zeroInflated_law {p : ℝ} (h0 : 0 ≤ p) (h1 : p ≤ 1) {rate : ℝ} (hr : 0 ≤ rate) (j : ℕ) :
    (uniformLaw.prod uniformLaw) {d | if d.1 < p then j = 0 else PoissonQuantile rate d.2 j} =
      ENNReal.ofReal ((if j = 0 then p else 0) + (1 - p) * truncatedPoisson rate j) := by
  have h2 : {d : ℝ × ℝ | if d.1 < p then j = 0 else PoissonQuantile rate d.2 j} =
      (Iio p ×ˢ {_u | j = 0}) ∪ (Ici p ×ˢ {u | PoissonQuantile rate u j}) := by
    ext d
    by_cases h : d.1 < p
    · simp [h]
    · simp [h, not_lt.1 h]
  have hq := measurableSet_poissonQuantile (measurable_const (a := rate)) measurable_id j
  simp only [id] at hq
  rw [h2, measure_union _ (measurableSet_Ici.prod hq), Measure.prod_prod, Measure.prod_prod, uniformLaw_Iio h1, uniformLaw_Ici h0 h1,
    poissonQuantile_law hr, ENNReal.ofReal_add _ (mul_nonneg (by linarith) (truncatedPoisson_nonneg hr j)),
    ENNReal.ofReal_mul (by linarith)]
  · congr 1
    by_cases hj : j = 0 <;> simp [hj]
  · split <;> linarith
  · rw [Set.disjoint_left]
    rintro d ⟨hd, -⟩ ⟨hd', -⟩
    exact absurd (mem_Iio.1 hd) (not_lt.2 (mem_Ici.1 hd'))

/-- The law of a count. -/
theorem countEvent_law {p : ℝ} (h0 : 0 ≤ p) (h1 : p ≤ 1) (root : Prop) [Decidable root] (x : ℝ) (j : ℕ) :
    (uniformLaw.prod (uniformLaw.prod uniformLaw)) (countEvent p root x j) = ENNReal.ofReal (countProb p root x j) := by
  rw [Measure.prod_apply (measurableSet_countEvent p root x j)]
  have h2 : ∀ e, (uniformLaw.prod uniformLaw) (Prod.mk e ⁻¹' countEvent p root x j) =
      ENNReal.ofReal ((if j = 0 then p else 0) + (1 - p) * truncatedPoisson (rateOf (if root then x + e else x)) j) := by
    intro e
    rw [← zeroInflated_law h0 h1 (rateOf_nonneg _) j]
    rfl
  simp only [h2]
  unfold countProb
  by_cases hroot : root
  · simp only [hroot, if_true]
    have hint : Integrable (fun e => truncatedPoisson (rateOf (x + e)) j) uniformLaw := by
      refine Integrable.of_bound (C := 1) ?_ ?_
      · exact ((measurable_truncatedPoisson j).comp (measurable_rateOf.comp (by fun_prop))).aestronglyMeasurable
      · refine Filter.Eventually.of_forall fun e => ?_
        rw [Real.norm_eq_abs, abs_of_nonneg (truncatedPoisson_nonneg (rateOf_nonneg _) j)]
        exact truncatedPoisson_le_one (rateOf_nonneg _) j
    rw [← ofReal_integral_eq_lintegral_ofReal]
    · congr 1
      rw [integral_add (integrable_const _) (hint.const_mul _), integral_const, integral_const_mul]
      simp only [probReal_univ, smul_eq_mul, one_mul]
      rw [intervalIntegral.integral_of_le zero_le_one, uniformLaw, ← restrict_Ioo_eq_restrict_Ico, restrict_Ioo_eq_restrict_Ioc]
    · exact (integrable_const _).add (hint.const_mul _)
    · refine Filter.Eventually.of_forall fun e => ?_
      have := truncatedPoisson_nonneg (rateOf_nonneg (x + e)) j
      have h3 : (0 : ℝ) ≤ if j = 0 then p else 0 := by split <;> linarith
      have h4 : 0 ≤ 1 - p := by linarith
      simp only [Pi.zero_apply]
      positivity
  · simp only [hroot, if_false]
    rw [lintegral_const, measure_univ, mul_one]

end Verif.Generators
