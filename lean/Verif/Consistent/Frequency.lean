import Mathlib.Probability.Moments.Variance
import Mathlib.Probability.Independence.Basic

/-!
# Relative frequencies in independent observations
-/

namespace Verif.Consistent

open MeasureTheory ProbabilityTheory

/-- Chebyshev's inequality for the relative frequency of a set of values. -/
theorem frequency_close {Ω α : Type} [MeasurableSpace Ω] {P : Measure Ω} [IsProbabilityMeasure P] {n : ℕ} (hn : 0 < n)
    {X : Fin n → Ω → α} (hm : ∀ i, @Measurable _ _ _ ⊤ (X i)) (hind : iIndepFun (m := fun _ => ⊤) X P) (B : α → Prop) [DecidablePred B]
    {q : ℝ} (hq0 : 0 ≤ q) (hq : ∀ i, P {ω | B (X i ω)} = ENNReal.ofReal q) {δ : ℝ} (hδ : 0 < δ) :
    MeasurableSet {ω | |(((Finset.univ.filter fun i => B (X i ω)).card : ℝ) / n) - q| < δ} ∧
    1 - ENNReal.ofReal (1 / (n * δ ^ 2)) ≤ P {ω | |(((Finset.univ.filter fun i => B (X i ω)).card : ℝ) / n) - q| < δ} := by
  let f : α → ℝ := fun x => if B x then 1 else 0
  let Y : Fin n → Ω → ℝ := fun i ω => f (X i ω)
  have hYm : ∀ i, Measurable (Y i) := fun i => by
    have : @Measurable α ℝ ⊤ _ f := fun _ _ => trivial
    exact this.comp (hm i)
  have hYb : ∀ i ω, Y i ω ∈ Set.Icc (0 : ℝ) 1 := by
    intro i ω
    change (if B (X i ω) then (1 : ℝ) else 0) ∈ _
    split <;> simp
  have hYL : ∀ i, MemLp (Y i) 2 P := fun i =>
    memLp_of_bounded (a := 0) (b := 1) (ae_of_all _ (hYb i)) (hYm i).aestronglyMeasurable 2
  have hYE : ∀ i, ∫ ω, Y i ω ∂P = q := by
    intro i
    have h1 : Y i = Set.indicator {ω | B (X i ω)} 1 := by
      funext ω
      change (if B (X i ω) then (1 : ℝ) else 0) = _
      by_cases h : B (X i ω)
      · rw [if_pos h, Set.indicator_of_mem (show ω ∈ {ω | B (X i ω)} from h)]; rfl
      · rw [if_neg h, Set.indicator_of_notMem (show ω ∉ {ω | B (X i ω)} from h)]
    have hBm : MeasurableSet {ω | B (X i ω)} := hm i (t := {x | B x}) trivial
    rw [h1, integral_indicator_one hBm, Measure.real, hq, ENNReal.toReal_ofReal hq0]
  have hYi : Pairwise fun i j => Y i ⟂ᵢ[P] Y j := by
    intro i j hij
    exact (hind.indepFun hij).comp (φ := f) (ψ := f) (_mβ := ⊤) (_mβ' := ⊤) (fun _ _ => trivial) (fun _ _ => trivial)
  let Z : Ω → ℝ := ∑ i, Y i
  have hZL : MemLp Z 2 P := memLp_finsetSum' _ fun i _ => hYL i
  have hZ : ∀ ω, Z ω = ((Finset.univ.filter fun i => B (X i ω)).card : ℝ) := by
    intro ω
    change (∑ i, Y i) ω = _
    rw [Finset.sum_apply]
    change ∑ i, (if B (X i ω) then (1 : ℝ) else 0) = _
    rw [Finset.sum_boole]
  have hZE : ∫ ω, Z ω ∂P = n * q := by
    change ∫ ω, (∑ i, Y i) ω ∂P = _
    simp only [Finset.sum_apply]
    rw [integral_finsetSum _ fun i _ => (hYL i).integrable (by norm_num)]
    simp [hYE]
  have hVar : variance Z P ≤ n := by
    change variance (∑ i, Y i) P ≤ _
    rw [IndepFun.variance_sum (fun i _ => hYL i) (fun i _ j _ hij => hYi hij)]
    have h1 : ∀ i ∈ (Finset.univ : Finset (Fin n)), variance (Y i) P ≤ 1 := by
      intro i _
      have := variance_le_sq_of_bounded (μ := P) (a := 0) (b := 1) (ae_of_all _ (hYb i)) (hYm i).aemeasurable
      norm_num at this
      linarith
    refine (Finset.sum_le_sum h1).trans ?_
    simp
  have hn' : (0 : ℝ) < n := by exact_mod_cast hn
  have hch := meas_ge_le_variance_div_sq hZL (c := n * δ) (by positivity)
  rw [hZE] at hch
  have hset : {ω | |(((Finset.univ.filter fun i => B (X i ω)).card : ℝ) / n) - q| < δ} = {ω | n * δ ≤ |Z ω - n * q|}ᶜ := by
    ext ω
    rw [Set.mem_compl_iff]
    change _ ↔ ¬ n * δ ≤ |Z ω - n * q|
    change |_| < δ ↔ _
    rw [← hZ, not_le, show Z ω - n * q = n * (Z ω / n - q) by field_simp, abs_mul, abs_of_pos hn', mul_lt_mul_iff_right₀ hn']
  have hZm : Measurable Z := by
    have h1 : Measurable fun ω => ∑ i, Y i ω := Finset.measurable_sum _ fun i _ => hYm i
    have h2 : Z = fun ω => ∑ i, Y i ω := funext fun ω => Finset.sum_apply ω _ _
    rw [h2]
    exact h1
  have hms : MeasurableSet {ω | n * δ ≤ |Z ω - n * q|} :=
    measurableSet_le measurable_const (continuous_abs.measurable.comp (hZm.sub_const _))
  rw [hset]
  refine ⟨hms.compl, ?_⟩
  rw [prob_compl_eq_one_sub hms]
  refine tsub_le_tsub_left (hch.trans (ENNReal.ofReal_le_ofReal ?_)) _
  rw [div_le_div_iff₀ (by positivity) (by positivity)]
  nlinarith [sq_nonneg δ, mul_pos hn' (sq_pos_of_pos hδ)]

end Verif.Consistent
