import Verif.Notears.Acyclic
import Mathlib.Analysis.Calculus.SmoothSeries
import Mathlib.Analysis.Calculus.FDeriv.Pow
import Mathlib.Analysis.Calculus.FDeriv.Mul
import Mathlib.Analysis.Matrix.Normed
import Mathlib.Analysis.Normed.Module.FiniteDimension
import Mathlib.Analysis.SpecialFunctions.Exponential

/-!
# The derivative of the acyclicity score
-/

namespace Verif.Notears

open Finset

section
variable {A : Type} [NormedRing A] [NormedAlgebra ℝ A] [CompleteSpace A]

/-- The map `B ↦ tr (a B)`, as a function of `a`. -/
noncomputable def trMul (tr : A →L[ℝ] ℝ) : A →L[ℝ] (A →L[ℝ] ℝ) :=
  (ContinuousLinearMap.compL ℝ A A ℝ tr).comp (ContinuousLinearMap.mul ℝ A)

omit [CompleteSpace A] in
@[simp] theorem trMul_apply (tr : A →L[ℝ] ℝ) (a b : A) : trMul tr a b = tr (a * b) := rfl

omit [CompleteSpace A] in
theorem hasFDerivAt_trace_pow {tr : A →L[ℝ] ℝ} (htr : ∀ a b, tr (a * b) = tr (b * a)) (a : A) (n : ℕ) :
    HasFDerivAt (fun x : A => tr (x ^ n)) ((n : ℝ) • trMul tr (a ^ (n - 1))) a := by
  have h := tr.hasFDerivAt.comp a (hasFDerivAt_pow' (𝕜 := ℝ) n (x := a))
  refine h.congr_fderiv ?_
  ext b
  simp only [ContinuousLinearMap.comp_apply, ContinuousLinearMap.sum_apply,
    ContinuousLinearMap.smul_apply, trMul_apply, map_sum]
  rw [Finset.sum_congr rfl (g := fun _ => tr (a ^ (n - 1) * b))]
  · simp
  · intro i hi
    have hi := Finset.mem_range.1 hi
    simp only [ContinuousLinearMap.id_apply, smul_eq_mul, MulOpposite.smul_eq_mul_unop, MulOpposite.unop_op]
    rw [mul_assoc, htr, mul_assoc, ← pow_add, htr]
    congr 3
    simp only [Nat.pred_eq_sub_one]
    omega

omit [CompleteSpace A] in
theorem norm_pow_bound (a : A) {R : ℝ} (h : ‖a‖ ≤ R) (k : ℕ) : ‖a ^ k‖ ≤ ‖(1 : A)‖ * R ^ k := by
  induction k with
  | zero => simp
  | succ k ih =>
    rw [pow_succ, pow_succ, ← mul_assoc]
    exact (norm_mul_le _ _).trans (mul_le_mul ih h (norm_nonneg _)
      (mul_nonneg (norm_nonneg _) (pow_nonneg ((norm_nonneg _).trans h) _)))

theorem hasFDerivAt_trace_exp {tr : A →L[ℝ] ℝ} (htr : ∀ a b, tr (a * b) = tr (b * a)) (a : A) :
    HasFDerivAt (fun x : A => tr (NormedSpace.exp x)) (trMul tr (NormedSpace.exp a)) a := by
  set R : ℝ := ‖a‖ + 1 with hR
  set C : ℝ := ‖trMul tr‖ with hC
  set D : ℝ := ‖(1 : A)‖ with hD
  have hR0 : 0 ≤ R := by positivity
  set u : ℕ → ℝ := fun n => ((n.factorial : ℝ)⁻¹ * n) * (C * (D * R ^ (n - 1))) with hu
  have hfac : ∀ n : ℕ, (((n + 1).factorial : ℝ)⁻¹ * ((n + 1 : ℕ) : ℝ)) = ((n.factorial : ℝ)⁻¹) := by
    intro n
    rw [Nat.factorial_succ, Nat.cast_mul, mul_inv]
    have : ((n + 1 : ℕ) : ℝ) ≠ 0 := by positivity
    field_simp
  have hsum : Summable u := by
    rw [← summable_nat_add_iff 1]
    have := (Real.summable_pow_div_factorial R).mul_left (C * D)
    refine this.congr ?_
    intro n
    simp only [hu, hfac, Nat.add_sub_cancel]
    ring
  have hf : ∀ (n : ℕ) (x : A), x ∈ Metric.ball (0 : A) R →
      HasFDerivAt (fun y : A => (n.factorial : ℝ)⁻¹ * tr (y ^ n))
        ((n.factorial : ℝ)⁻¹ • ((n : ℝ) • trMul tr (x ^ (n - 1)))) x := by
    intro n x _
    exact (hasFDerivAt_trace_pow htr x n).const_mul _
  have hf' : ∀ (n : ℕ) (x : A), x ∈ Metric.ball (0 : A) R →
      ‖(n.factorial : ℝ)⁻¹ • ((n : ℝ) • trMul tr (x ^ (n - 1)))‖ ≤ u n := by
    intro n x hx
    have hx : ‖x‖ ≤ R := by simpa using (mem_ball_zero_iff.1 hx).le
    rw [norm_smul, norm_smul, ← mul_assoc, Real.norm_of_nonneg (by positivity),
      Real.norm_of_nonneg (by positivity)]
    refine mul_le_mul_of_nonneg_left ?_ (by positivity)
    exact (ContinuousLinearMap.le_opNorm _ _).trans
      (mul_le_mul_of_nonneg_left (norm_pow_bound x hx _) (norm_nonneg _))
  have hAR : a ∈ Metric.ball (0 : A) R := by
    rw [mem_ball_zero_iff]; linarith
  have hs0 : ∀ x : A, HasSum (fun n : ℕ => (n.factorial : ℝ)⁻¹ * tr (x ^ n))
      (tr (NormedSpace.exp x)) := by
    intro x
    have h := (NormedSpace.exp_series_hasSum_exp' (𝕂 := ℝ) x).mapL tr
    simpa using h
  have main := hasFDerivAt_tsum_of_isPreconnected hsum Metric.isOpen_ball
    (convex_ball (0 : A) R).isPreconnected hf hf' hAR (hs0 a).summable hAR
  have e1 : (fun x : A => ∑' n : ℕ, (n.factorial : ℝ)⁻¹ * tr (x ^ n)) =
      fun x => tr (NormedSpace.exp x) := funext fun x => (hs0 x).tsum_eq
  rw [e1] at main
  refine main.congr_fderiv ?_
  have h2 := (NormedSpace.exp_series_hasSum_exp' (𝕂 := ℝ) a).mapL (trMul tr)
  have h3 : HasSum (fun n : ℕ => (n.factorial : ℝ)⁻¹ • ((n : ℝ) • trMul tr (a ^ (n - 1))))
      (trMul tr (NormedSpace.exp a)) := by
    rw [← hasSum_nat_add_iff' 1]
    simp only [Finset.range_one, Finset.sum_singleton, Nat.cast_zero, zero_smul, smul_zero, sub_zero]
    refine h2.congr_fun ?_ |> fun h => h
    intro n
    rw [smul_smul, hfac]
    simp
  exact h3.tsum_eq

omit [CompleteSpace A] in
/-- The derivative of `tr (exp (Σ c i • e i))`. -/
theorem hasFDerivAt_trace_exp_sum [FiniteDimensional ℝ A] {E ι : Type} [NormedAddCommGroup E] [NormedSpace ℝ E] [Fintype ι]
    {tr : A →L[ℝ] ℝ} (htr : ∀ a b, tr (a * b) = tr (b * a)) (e : ι → A) {c : ι → E → ℝ}
    {c' : ι → E →L[ℝ] ℝ} {x : E} (hc : ∀ i, HasFDerivAt (c i) (c' i) x) :
    HasFDerivAt (fun y => tr (NormedSpace.exp (∑ i, c i y • e i)))
      (∑ i, tr (NormedSpace.exp (∑ i, c i x • e i) * e i) • c' i) x := by
  haveI : CompleteSpace A := FiniteDimensional.complete ℝ A
  have h1 : HasFDerivAt (fun y => ∑ i, c i y • e i) (∑ i, (c' i).smulRight (e i)) x :=
    HasFDerivAt.fun_sum fun i _ => (hc i).smul_const _
  have h2 := (hasFDerivAt_trace_exp htr (∑ i, c i x • e i)).comp x h1
  refine HasFDerivAt.congr_fderiv h2 ?_
  ext v
  simp [ContinuousLinearMap.sum_apply, Finset.mul_sum, mul_comm]

end

/-! ### Matrices -/

open Matrix

section
variable {V : Type} [Fintype V] [DecidableEq V]
variable {E : Type} [NormedAddCommGroup E] [NormedSpace ℝ E]

/-- The derivative of `trace (exp (φ x))`, where the entries of `φ` are differentiable. -/
theorem hasFDerivAt_trace_exp_comp {φ : E → Matrix V V ℝ} {φ' : V → V → E →L[ℝ] ℝ} {x : E}
    (hφ : ∀ i j, HasFDerivAt (fun y => φ y i j) (φ' i j) x) :
    HasFDerivAt (fun y => trace (NormedSpace.exp (φ y)))
      (∑ i, ∑ j, NormedSpace.exp (φ x) j i • φ' i j) x := by
  have hsum : ∀ y, ∑ p : V × V, φ y p.1 p.2 • Matrix.single p.1 p.2 (1 : ℝ) = φ y := by
    intro y
    conv_rhs => rw [Matrix.matrix_eq_sum_single (φ y)]
    rw [Fintype.sum_prod_type]
    simp
  have h2 := @hasFDerivAt_trace_exp_sum (Matrix V V ℝ) Matrix.linftyOpNormedRing
    Matrix.linftyOpNormedAlgebra
    (inferInstance : FiniteDimensional ℝ (Matrix V V ℝ)) E (V × V) _ _ _
    (LinearMap.toContinuousLinearMap (Matrix.traceLinearMap V ℝ ℝ))
    (fun a b => Matrix.trace_mul_comm a b) (fun p => Matrix.single p.1 p.2 (1 : ℝ))
    (fun p y => φ y p.1 p.2) (fun p => φ' p.1 p.2) x (fun p => hφ p.1 p.2)
  have e1 : (fun y => trace (NormedSpace.exp (φ y))) = fun y => trace (NormedSpace.exp
      (∑ p : V × V, φ y p.1 p.2 • Matrix.single p.1 p.2 (1 : ℝ))) := by
    funext y; rw [hsum]
  have e2 : (∑ i, ∑ j, NormedSpace.exp (φ x) j i • φ' i j) = ∑ p : V × V, trace (NormedSpace.exp
      (∑ p : V × V, φ x p.1 p.2 • Matrix.single p.1 p.2 (1 : ℝ)) * Matrix.single p.1 p.2 (1 : ℝ)) •
        φ' p.1 p.2 := by
    rw [hsum, Fintype.sum_prod_type]
    simp [Matrix.trace_mul_single]
  rw [e1, e2]
  exact h2

end

end Verif.Notears
