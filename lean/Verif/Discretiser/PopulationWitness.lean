import Verif.Discretiser.Population
import Mathlib.MeasureTheory.Measure.Lebesgue.Basic

/-!
# Concrete cases for C144
-/

namespace Verif.Discretiser

open MeasureTheory ProbabilityTheory

/-- For every distribution there are independent draws from it. -/
theorem draws_exist (μ : Measure ℝ) [IsProbabilityMeasure μ] (n : ℕ) : Draws (Measure.pi fun _ : Fin n => μ) μ fun i ω => ω i :=
  ⟨fun i => measurable_pi_apply i, iIndepFun_pi (μ := fun _ : Fin n => μ) (X := fun _ x => x) fun _ => aemeasurable_id,
    fun i => (measurePreserving_eval (fun _ : Fin n => μ) i).map_eq⟩

/-- The uniform distribution on an interval of length 1. -/
noncomputable def evenLaw : Measure ℝ := volume.restrict (Set.Icc 0 1)

instance : IsProbabilityMeasure evenLaw := ⟨by simp [evenLaw]⟩

instance : NullSingletonClass evenLaw := inferInstanceAs (NullSingletonClass (volume.restrict (Set.Icc (0 : ℝ) 1)))

/-- 1000 uniform draws and 4 quantile buckets: the probability that one of the buckets has a share that is not within 0.102 of 1/4 is at most
6 exp (-5). -/
example : Measure.pi (fun _ : Fin 1000 => evenLaw) {ω | ¬ ∃ d', fit (⟨"quantile", some 4, none, none, none⟩ : Disc ℝ) (List.ofFn ω) = (d', .ok ()) ∧
    ∀ k ≤ 3, |evenLaw.real {x | transform d' [x] = .ok [k]} - 1 / 4| ≤ 102 / 1000} ≤ ENNReal.ofReal (6 * Real.exp (-5)) := by
  have hr : Reach (⟨"quantile", some 4, none, none, none⟩ : Disc ℝ) := .create (m := "quantile") (b := some 4) (o := none) (n := none) (p := none) (by simp [create])
  have hw : Fractions (⟨"quantile", some 4, none, none, none⟩ : Disc ℝ) [1 / 4, 2 / 4, 3 / 4] := by
    refine Or.inl ⟨rfl, 4, by norm_num, rfl, rfl, ?_⟩
    intro i w hw
    match i, hw with
    | 0, hw => cases hw; norm_num
    | 1, hw => cases hw; norm_num
    | 2, hw => cases hw; norm_num
  have h := population_balanced (draws_exist evenLaw 1000) (by norm_num) hr hw (ε := 1 / 20) (by norm_num)
  have e : ∀ k ≤ 3, share ([1 / 4, 2 / 4, 3 / 4] : List ℝ) k = 1 / 4 := by
    intro k hk
    interval_cases k <;> norm_num [share]
  refine (measure_mono ?_).trans (h.trans (ENNReal.ofReal_le_ofReal (le_of_eq ?_)))
  · rintro ω hω ⟨d', h1, h2⟩
    refine hω ⟨d', h1, fun k hk => ?_⟩
    have := h2 k hk
    rw [e k hk] at this
    refine this.trans ?_
    norm_num
  · norm_num

end Verif.Discretiser
