import Verif.Recover.Average

/-!
# Independent noise
-/

namespace Verif.Recover

open MeasureTheory ProbabilityTheory

/-- The random numbers `X i` are independent, and each has the distribution `ν`. -/
structure Iid {Ω ι : Type} [MeasurableSpace Ω] (P : Measure Ω) (ν : Measure ℝ) (X : ι → Ω → ℝ) : Prop where
  measurable : ∀ i, Measurable (X i)
  indep : iIndepFun X P
  law : ∀ i, P.map (X i) = ν

/-- The mean is 0, the mean square is `v`, and the fourth moment is finite. -/
structure Centred (ν : Measure ℝ) (v : ℝ) : Prop where
  mean : ∫ x, x ∂ν = 0
  square : ∫ x, x ^ 2 ∂ν = v
  fourth : Integrable (fun x : ℝ => x ^ 4) ν

variable {Ω ι : Type} [MeasurableSpace Ω] {P : Measure Ω} {ν : Measure ℝ} {X : ι → Ω → ℝ}

theorem Iid.integral (h : Iid P ν X) (i : ι) {f : ℝ → ℝ} (hf : Measurable f) : ∫ ω, f (X i ω) ∂P = ∫ x, f x ∂ν := by
  rw [← h.law i, integral_map (h.measurable i).aemeasurable hf.aestronglyMeasurable]

theorem Iid.integrable (h : Iid P ν X) (i : ι) {f : ℝ → ℝ} (hf : Integrable f ν) : Integrable (fun ω => f (X i ω)) P := by
  rw [← h.law i] at hf
  exact hf.comp_measurable (h.measurable i)

theorem four_bound (x y : ℝ) : (x * y) ^ 2 ≤ (x ^ 4 + y ^ 4) / 2 := by nlinarith [sq_nonneg (x ^ 2 - y ^ 2)]

theorem Iid.product_integrable (h : Iid P ν X) {v : ℝ} (hν : Centred ν v) (i j : ι) :
    Integrable (fun ω => (X i ω * X j ω) ^ 2) P := by
  refine (((h.integrable i hν.fourth).add (h.integrable j hν.fourth)).div_const 2).mono'
    ((((h.measurable i).mul (h.measurable j)).pow_const 2).aestronglyMeasurable) (ae_of_all _ fun ω => ?_)
  rw [Real.norm_eq_abs, abs_of_nonneg (sq_nonneg _)]
  exact four_bound _ _

theorem Iid.product_memLp (h : Iid P ν X) {v : ℝ} (hν : Centred ν v) (i j : ι) : MemLp (fun ω => X i ω * X j ω) 2 P :=
  (memLp_two_iff_integrable_sq ((h.measurable i).mul (h.measurable j)).aestronglyMeasurable).2 (h.product_integrable hν i j)

theorem Iid.product_square (h : Iid P ν X) {v : ℝ} (hν : Centred ν v) (i j : ι) :
    ∫ ω, (X i ω * X j ω) ^ 2 ∂P ≤ ∫ x, x ^ 4 ∂ν := by
  have h1 : ∀ i, ∫ ω, X i ω ^ 4 ∂P = ∫ x, x ^ 4 ∂ν := fun i => h.integral i (f := fun x => x ^ 4) (measurable_id.pow_const 4)
  calc ∫ ω, (X i ω * X j ω) ^ 2 ∂P ≤ ∫ ω, (X i ω ^ 4 + X j ω ^ 4) / 2 ∂P :=
        integral_mono (h.product_integrable hν i j) (((h.integrable i hν.fourth).add (h.integrable j hν.fourth)).div_const 2)
          fun ω => four_bound _ _
    _ = _ := by
        rw [integral_div, integral_add (h.integrable i hν.fourth) (h.integrable j hν.fourth), h1, h1]
        ring

theorem Iid.product_mean (h : Iid P ν X) {v : ℝ} (hν : Centred ν v) [DecidableEq ι] (i j : ι) :
    ∫ ω, X i ω * X j ω ∂P = if i = j then v else 0 := by
  by_cases hij : i = j
  · subst hij
    rw [if_pos rfl]
    have := h.integral i (f := fun x => x ^ 2) (measurable_id.pow_const 2)
    rw [hν.square] at this
    rw [← this]
    exact integral_congr_ae (ae_of_all _ fun ω => (sq (X i ω)).symm)
  · rw [if_neg hij, (h.indep.indepFun hij).integral_fun_mul_eq_mul_integral (h.measurable i).aestronglyMeasurable
      (h.measurable j).aestronglyMeasurable]
    have := h.integral i (f := fun x => x) measurable_id
    rw [hν.mean] at this
    rw [this, zero_mul]

theorem Iid.product_indep (h : Iid P ν X) {i j k l : ι} (hik : i ≠ k) (hil : i ≠ l) (hjk : j ≠ k) (hjl : j ≠ l) :
    (fun ω => X i ω * X j ω) ⟂ᵢ[P] (fun ω => X k ω * X l ω) :=
  (h.indep.indepFun_prodMk_prodMk h.measurable i j k l hik hil hjk hjl).comp (φ := fun p : ℝ × ℝ => p.1 * p.2)
    (ψ := fun p : ℝ × ℝ => p.1 * p.2) (measurable_fst.mul measurable_snd) (measurable_fst.mul measurable_snd)

end Verif.Recover
