import Verif.Notears.Identify
import Verif.Notears.PropsOptimal
import Mathlib.Algebra.Order.Chebyshev

/-!
# C125: linear models with errors of equal size are identified

If the columns of the data follow acyclic linear equations whose errors are (nearly) uncorrelated and (nearly) of the same size, then
the weights of these equations are the ones NOTEARS learns.
-/

namespace Verif.Notears

open Matrix Finset

/-! ### Specification -/

/-- The error of the linear equation for column `j` in row `i`. -/
noncomputable def Data.residual (X : Data ℝ) (V : ℕ → ℕ → ℝ) (i j : ℕ) : ℝ := X.val i j - ∑ k ∈ range X.cols, X.val i k * V k j

/-- The mean, over the rows, of the product of the errors for columns `j` and `k`. -/
noncomputable def Data.residualProduct (X : Data ℝ) (V : ℕ → ℕ → ℝ) (j k : ℕ) : ℝ :=
  (∑ i ∈ range X.rows, X.residual V i j * X.residual V i k) / X.rows

/-- Up to `δ`, the errors for different columns are uncorrelated and all have the mean square `v`. -/
def EqualErrors (X : Data ℝ) (V : ℕ → ℕ → ℝ) (v δ : ℝ) : Prop :=
  ∀ j < X.cols, ∀ k < X.cols, |X.residualProduct V j k - if j = k then v else 0| ≤ δ

/-! ### Lemmas -/

theorem residual_eq (X : Data ℝ) (V : ℕ → ℕ → ℝ) (i : Fin X.rows) (j : Fin X.cols) :
    X.residual V i j = (X.matrix * (1 - Matrix.of fun i j : Fin X.cols => V i j) : Matrix (Fin X.rows) (Fin X.cols) ℝ) i j := by
  rw [Matrix.mul_sub, Matrix.mul_one, Matrix.sub_apply, Matrix.mul_apply, Data.residual, Finset.sum_range]
  rfl

/-- The squared error of `W`, where `1 - W = (1 - V) T`. -/
theorem squaredError_residual (X : Data ℝ) (V W : ℕ → ℕ → ℝ) {T : Matrix (Fin X.cols) (Fin X.cols) ℝ}
    (hT : 1 - (Matrix.of fun i j : Fin X.cols => W i j) = (1 - Matrix.of fun i j : Fin X.cols => V i j) * T) :
    2 * squaredError X W = ∑ j, ∑ a, ∑ b, T a j * T b j * X.residualProduct V (a : Fin X.cols) (b : Fin X.cols) := by
  have h1 : ∀ (i : Fin X.rows) (j : Fin X.cols), X.residual W i j = ∑ a : Fin X.cols, X.residual V i a * T a j := by
    intro i j
    rw [residual_eq, hT, ← Matrix.mul_assoc, Matrix.mul_apply]
    exact Finset.sum_congr rfl fun a _ => by rw [residual_eq]
  have h2 : 2 * squaredError X W = (∑ i : Fin X.rows, ∑ j : Fin X.cols, X.residual W i j ^ 2) / X.rows := by
    unfold squaredError
    rw [Finset.sum_range]
    simp only [Finset.sum_range (n := X.cols), Data.residual]
    by_cases h : (X.rows : ℝ) = 0
    · rw [h]; simp
    · field_simp
  rw [h2, Finset.sum_comm, Finset.sum_div]
  refine Finset.sum_congr rfl fun j _ => ?_
  have h3 : ∀ i : Fin X.rows, X.residual W i j ^ 2 =
      ∑ a : Fin X.cols, ∑ b : Fin X.cols, T a j * T b j * (X.residual V i a * X.residual V i b) := by
    intro i
    rw [h1, sq, Finset.sum_mul_sum]
    exact Finset.sum_congr rfl fun a _ => Finset.sum_congr rfl fun b _ => by ring
  rw [Finset.sum_congr rfl fun i _ => h3 i, Finset.sum_comm, Finset.sum_div]
  refine Finset.sum_congr rfl fun a _ => ?_
  rw [Finset.sum_comm, Finset.sum_div]
  refine Finset.sum_congr rfl fun b _ => ?_
  rw [← Finset.mul_sum, Data.residualProduct, Finset.sum_range, mul_div_assoc]

section
variable {d : ℕ}

/-- A quadratic form whose matrix is `v` times the identity up to `δ`. -/
theorem form_ge (T G : Matrix (Fin d) (Fin d) ℝ) {v δ : ℝ} (hG : ∀ a b, |G a b - if a = b then v else 0| ≤ δ) :
    (v - δ * d) * ∑ i, ∑ j, T i j ^ 2 ≤ ∑ j, ∑ a, ∑ b, T a j * T b j * G a b := by
  rw [Finset.sum_comm, Finset.mul_sum]
  refine Finset.sum_le_sum fun j _ => ?_
  have h1 : ∀ a b, T a j * T b j * (if a = b then v else 0) - δ * (|T a j| * |T b j|) ≤ T a j * T b j * G a b := by
    intro a b
    have h2 : |T a j * T b j * (G a b - if a = b then v else 0)| ≤ |T a j| * |T b j| * δ := by
      rw [abs_mul, abs_mul]
      exact mul_le_mul_of_nonneg_left (hG a b) (by positivity)
    have h3 := neg_abs_le (T a j * T b j * (G a b - if a = b then v else 0))
    linarith
  calc (v - δ * d) * ∑ i, T i j ^ 2
      ≤ v * ∑ a, T a j ^ 2 - δ * (∑ a, |T a j|) ^ 2 := by
        have h2 : (∑ a : Fin d, |T a j|) ^ 2 ≤ d * ∑ a, T a j ^ 2 := by
          have := sq_sum_le_card_mul_sum_sq (s := (Finset.univ : Finset (Fin d))) (f := fun a => |T a j|)
          simpa using this
        by_cases h0 : ∃ a : Fin d, True
        · obtain ⟨a, -⟩ := h0
          have hδ : 0 ≤ δ := (abs_nonneg _).trans (hG a a)
          nlinarith [mul_le_mul_of_nonneg_left h2 hδ]
        · push Not at h0
          haveI : IsEmpty (Fin d) := ⟨fun a => (h0 a).elim⟩
          simp
    _ = ∑ a, ∑ b, (T a j * T b j * (if a = b then v else 0) - δ * (|T a j| * |T b j|)) := by
        simp only [Finset.sum_sub_distrib, mul_ite, mul_zero, Finset.sum_ite_eq, Finset.mem_univ, if_true]
        rw [sq (∑ a, |T a j|), Finset.sum_mul_sum, Finset.mul_sum, Finset.mul_sum]
        congr 1
        · exact Finset.sum_congr rfl fun a _ => by ring
        · exact Finset.sum_congr rfl fun a _ => by rw [Finset.mul_sum]
    _ ≤ _ := Finset.sum_le_sum fun a _ => Finset.sum_le_sum fun b _ => h1 a b

end

theorem equal_matrix {X : Data ℝ} {V : ℕ → ℕ → ℝ} {v δ : ℝ} (h : EqualErrors X V v δ) (a b : Fin X.cols) :
    |(Matrix.of fun a b : Fin X.cols => X.residualProduct V a b) a b - if a = b then v else 0| ≤ δ := by
  have := h a a.2 b b.2
  simp only [Fin.val_inj] at this
  exact this

/-- The squared error of the equations themselves. -/
theorem squaredError_self (X : Data ℝ) (V : ℕ → ℕ → ℝ) :
    2 * squaredError X V = ∑ j : Fin X.cols, X.residualProduct V j j := by
  rw [squaredError_residual X V V (T := 1) (Matrix.mul_one _).symm]
  refine Finset.sum_congr rfl fun j _ => ?_
  simp [Matrix.one_apply]

theorem exists_factor {d : ℕ} {U : Matrix (Fin d) (Fin d) ℝ} (hU : NoCycle U) (W : Matrix (Fin d) (Fin d) ℝ) :
    ∃ T, 1 - W = (1 - U) * T := by
  refine ⟨(1 - U)⁻¹ * (1 - W), ?_⟩
  rw [← Matrix.mul_assoc, Matrix.mul_nonsing_inv _ (by rw [hU.det]; exact isUnit_one), Matrix.one_mul]

/-! ### Theorems -/

/-- **C125**, identification: if the errors of acyclic linear equations are uncorrelated and of the same size, then no other acyclic
weights have as small a squared error. -/
theorem identified {X : Data ℝ} {V W : ℕ → ℕ → ℝ} {v : ℝ} (hV : AcyclicWeights X.cols V) (hv : 0 < v) (hE : EqualErrors X V v 0)
    (hW : AcyclicWeights X.cols W) : squaredError X V ≤ squaredError X W ∧
      (squaredError X W = squaredError X V ↔ ∀ i < X.cols, ∀ j < X.cols, W i j = V i j) := by
  obtain ⟨T, hT⟩ := exists_factor hV (fun i j : Fin X.cols => W i j)
  have hT' : 1 - (Matrix.of fun i j : Fin X.cols => W i j) = (1 - Matrix.of fun i j : Fin X.cols => V i j) * T := hT
  have hG : ∀ a b : Fin X.cols, X.residualProduct V a b = if a = b then v else 0 := by
    intro a b
    have := equal_matrix hE a b
    exact sub_eq_zero.1 (abs_nonpos_iff.1 this)
  have h1 : 2 * squaredError X W = v * ∑ i, ∑ j, T i j ^ 2 := by
    rw [squaredError_residual X V W hT', Finset.sum_comm (f := fun i j => T i j ^ 2), Finset.mul_sum]
    refine Finset.sum_congr rfl fun j _ => ?_
    rw [Finset.mul_sum]
    refine Finset.sum_congr rfl fun a _ => ?_
    simp only [hG, mul_ite, mul_zero, Finset.sum_ite_eq, Finset.mem_univ, if_true]
    ring
  have h2 : 2 * squaredError X V = v * X.cols := by
    rw [squaredError_self]
    simp only [hG, if_true, Finset.sum_const, Finset.card_univ, Fintype.card_fin, nsmul_eq_mul]
    ring
  have h := squares_of_noCycle hV hW hT
  rw [Fintype.card_fin] at h
  refine ⟨by nlinarith [mul_le_mul_of_nonneg_left h.1 hv.le], ?_⟩
  rw [show squaredError X W = squaredError X V ↔ ∑ i, ∑ j, T i j ^ 2 = (X.cols : ℝ) from
    ⟨fun heq => mul_left_cancel₀ hv.ne' (by linarith), fun heq => by rw [heq] at h1; linarith⟩, h.2]
  exact ⟨fun heq i hi j hj => congrFun (congrFun heq ⟨i, hi⟩) ⟨j, hj⟩, fun heq => by
    funext i j
    exact heq i i.2 j j.2⟩

/-- Stability for any continuous score `S` that is positive if there are cycles. -/
theorem identified_continuous {d : ℕ} {V : ℕ → ℕ → ℝ} {ε : ℝ} {S : Matrix (Fin d) (Fin d) ℝ → ℝ} (hS : Continuous S)
    (hS0 : ∀ W, S W ≤ 0 → NoCycle W) (hV : AcyclicWeights d V) (hε : 0 < ε) :
    ∃ δ > 0, ∀ (X : Data ℝ) (v : ℝ), X.cols = d → 0 < v → EqualErrors X V v (δ * v) → ∀ W : ℕ → ℕ → ℝ,
      squaredError X W ≤ squaredError X V + δ * v → S (fun i j : Fin d => W i j) ≤ δ →
      ∀ i < d, ∀ j < d, |W i j - V i j| < ε := by
  obtain ⟨η, hη, hclose⟩ := close_of_continuous hS hS0 hV hε
  have hd : (0 : ℝ) ≤ d := Nat.cast_nonneg d
  have hden : 0 < (d : ℝ) + 2 + d ^ 2 + η * d + 1 := by positivity
  have hδ : 0 < min η (η / (d + 2 + d ^ 2 + η * d + 1)) := lt_min hη (by positivity)
  refine ⟨min η (η / (d + 2 + d ^ 2 + η * d + 1)), hδ, ?_⟩
  have hδ1 : min η (η / (d + 2 + d ^ 2 + η * d + 1)) ≤ η := min_le_left _ _
  have hδ2 : min η (η / (d + 2 + d ^ 2 + η * d + 1)) * (d + 2 + d ^ 2 + η * d + 1) ≤ η := by
    rw [← le_div_iff₀ hden]
    exact min_le_right _ _
  generalize min η (η / (d + 2 + d ^ 2 + η * d + 1)) = δ at hδ hδ1 hδ2 ⊢
  intro X v hX hv hE W hW hsc i hi j hj
  subst hX
  obtain ⟨T, hT⟩ := exists_factor hV (fun i j : Fin X.cols => W i j)
  have hT' : 1 - (Matrix.of fun i j : Fin X.cols => W i j) = (1 - Matrix.of fun i j : Fin X.cols => V i j) * T := hT
  refine hclose _ T hT ?_ (hsc.trans hδ1) ⟨i, hi⟩ ⟨j, hj⟩
  rw [Fintype.card_fin]
  have h1 := form_ge T _ (equal_matrix hE)
  simp only [Matrix.of_apply] at h1
  rw [← squaredError_residual X V W hT'] at h1
  have h2 : 2 * squaredError X V ≤ X.cols * (v + δ * v) := by
    rw [squaredError_self]
    have : ∀ j ∈ (Finset.univ : Finset (Fin X.cols)), X.residualProduct V j j ≤ v + δ * v := by
      intro j _
      have := le_of_abs_le (equal_matrix hE j j)
      rw [if_pos rfl, Matrix.of_apply] at this
      linarith
    refine (Finset.sum_le_card_nsmul _ _ _ this).trans (le_of_eq ?_)
    simp
    ring
  have h3 : (1 - δ * X.cols) * ∑ i, ∑ j, T i j ^ 2 ≤ X.cols * (1 + δ) + 2 * δ := by
    refine le_of_mul_le_mul_left ?_ hv
    calc v * ((1 - δ * X.cols) * ∑ i, ∑ j, T i j ^ 2) = (v - δ * v * X.cols) * ∑ i, ∑ j, T i j ^ 2 := by ring
      _ ≤ 2 * squaredError X W := h1
      _ ≤ X.cols * (v + δ * v) + 2 * (δ * v) := by linarith
      _ = _ := by ring
  have hdδ : 0 ≤ (X.cols : ℝ) * δ := by positivity
  have hpos : 0 < 1 - δ * X.cols := by
    by_contra hn
    push Not at hn
    have : η * 1 ≤ η * (δ * X.cols) := mul_le_mul_of_nonneg_left (by linarith) hη.le
    nlinarith [mul_nonneg hδ.le (sq_nonneg (X.cols : ℝ))]
  refine le_of_mul_le_mul_left ?_ hpos
  nlinarith [mul_nonneg hδ.le (sq_nonneg (X.cols : ℝ))]

/-- **C125**, stability: if the errors are nearly uncorrelated and nearly of the same size, then all weights that fit nearly as well
and have a small acyclicity score are close to those of the equations. -/
theorem identified_near {d : ℕ} {V : ℕ → ℕ → ℝ} {ε : ℝ} (hV : AcyclicWeights d V) (hε : 0 < ε) :
    ∃ δ > 0, ∀ (X : Data ℝ) (v : ℝ), X.cols = d → 0 < v → EqualErrors X V v (δ * v) → ∀ W : ℕ → ℕ → ℝ,
      squaredError X W ≤ squaredError X V + δ * v → expScore (fun i j : Fin d => W i j) ≤ δ →
      ∀ i < d, ∀ j < d, |W i j - V i j| < ε :=
  identified_continuous expScore_continuous noCycle_of_expScore hV hε

/-- **C125** for `from_numpy`: if the errors of acyclic linear equations with the weights `V` are nearly uncorrelated and nearly of
the same size, the optimiser does not miss `V`, no warning is given and the tolerance is small, then the learned edges are exactly
those of `V`, with nearly the same weights. -/
theorem notears_recovers {d : ℕ} {V : ℕ → ℕ → ℝ} {ε : ℝ} (hV : AcyclicWeights d V) (hε : 0 < ε) :
    ∃ δ > 0, ∀ (X : Data ℝ) (v : ℝ) (minimize : Minimizer ℝ) (fuel : ℕ) (a : Params ℝ ℕ) (g : Graph ℕ ℝ), X.cols = d → 0 < v →
      EqualErrors X V v (δ * v) → RespectsBounds minimize → notears minimize fuel X a = .ok g → a.maxIter ≠ 0 →
      NotWorse (problem X) minimize (box d a.tabu) (rowMajor d V) → fromNumpyWarns (problem X) minimize fuel X a = false →
      a.hTol ≤ δ → ε ≤ a.wThreshold → (∀ i < d, ∀ j < d, V i j ≠ 0 → a.wThreshold + ε ≤ |V i j|) →
      (∀ i j, (∃ x o, (⟨i, j, x, o⟩ : Edge ℕ ℝ) ∈ g.edges) ↔ i < d ∧ j < d ∧ V i j ≠ 0) ∧
      ∀ i j x o, (⟨i, j, x, o⟩ : Edge ℕ ℝ) ∈ g.edges → |x - V i j| < ε := by
  obtain ⟨δ, hδ, hnear⟩ := identified_near hV hε
  refine ⟨δ, hδ, fun X v minimize fuel a g hX hv hE hm h hmax hopt hw htol hthr hbig => ?_⟩
  subst hX
  obtain ⟨-, -, s, hs, rfl⟩ := fromNumpy_ok.1 h
  have hscore : expScore (mat X.cols s.wEst) ≤ a.hTol :=
    WithTop.coe_le_coe.1 ((learnLoop_score hs hmax).1 (warns_false hs hw))
  have hbest := learnLoop_best (problem_penalised X) hm hs hmax (box_zero _ _)
    (by rw [mat_rowMajor]; exact (expScore_eq_zero_iff _).2 hV) hopt
  rw [squaredError_congr X (V := V) fun i hi j hj => rowMajor_reshape _ V hi hj] at hbest
  have hclose := hnear X v rfl hv hE (reshape X.cols s.wEst) (by nlinarith) (hscore.trans htol)
  have hedge : ∀ i j x o, (⟨i, j, x, o⟩ : Edge ℕ ℝ) ∈ (ofMatrix X.cols (reshape X.cols (s.wEst.map (cutPlain a.wThreshold)))).edges ↔
      i < X.cols ∧ j < X.cols ∧ reshape X.cols s.wEst i j = x ∧ a.wThreshold < |x| ∧ o = "unknown" := by
    intro i j x o
    rw [mem_ofMatrix, reshape_map _ _ _ (cutPlain_zero _)]
    simp only
    constructor
    · rintro ⟨h1, h2, h3, h4, h5⟩
      have h6 := cutPlain_ne_zero.1 h3
      rw [cutPlain_eq h3] at h4
      subst h4
      exact ⟨h1, h2, rfl, h6.2, h5⟩
    · rintro ⟨h1, h2, rfl, h5, h6⟩
      have h3 := cutPlain_ne_zero.2 ⟨fun h0 => by rw [h0, abs_zero] at h5; linarith, h5⟩
      exact ⟨h1, h2, h3, (cutPlain_eq h3).symm, h6⟩
  constructor
  · intro i j
    constructor
    · rintro ⟨x, o, he⟩
      obtain ⟨h1, h2, rfl, h4, -⟩ := (hedge i j x o).1 he
      refine ⟨h1, h2, fun h0 => ?_⟩
      have := hclose i h1 j h2
      rw [h0, sub_zero] at this
      linarith
    · rintro ⟨h1, h2, h3⟩
      refine ⟨_, _, (hedge i j _ _).2 ⟨h1, h2, rfl, ?_, rfl⟩⟩
      have h4 := hbig i h1 j h2 h3
      have h5 := hclose i h1 j h2
      have h6 := abs_sub_abs_le_abs_sub (V i j) (reshape X.cols s.wEst i j)
      rw [abs_sub_comm] at h5
      linarith
  · intro i j x o he
    obtain ⟨h1, h2, rfl, -, -⟩ := (hedge i j x o).1 he
    exact hclose i h1 j h2

/-- **C125** for `from_numpy_lasso`: the same if the penalty is small too.  `w₀` gives `V` as positive and negative parts. -/
theorem notearsLasso_recovers {d : ℕ} {V : ℕ → ℕ → ℝ} {ε : ℝ} (hV : AcyclicWeights d V) (hε : 0 < ε) :
    ∃ δ > 0, ∀ (X : Data ℝ) (v : ℝ) (minimize : Minimizer ℝ) (fuel : ℕ) (beta : ℝ) (a : Params ℝ ℕ) (g : Graph ℕ ℝ)
      (w₀ : List ℝ), X.cols = d → 0 < v →
      EqualErrors X V v (δ * v) → RespectsBounds minimize → notearsLasso minimize fuel beta X a = .ok g → a.maxIter ≠ 0 →
      (∀ i < d, ∀ j < d, splitMatrix d w₀ i j = V i j) → w₀.sum = absSum d V → 0 ≤ beta → beta * absSum d V ≤ δ * v →
      NotWorse (problemLasso beta X) minimize (boxLasso d a.tabu) w₀ →
      fromNumpyLassoWarns (problemLasso beta X) minimize fuel X a = false →
      a.hTol ≤ δ → ε ≤ a.wThreshold → (∀ i < d, ∀ j < d, V i j ≠ 0 → a.wThreshold + ε ≤ |V i j|) →
      (∀ i j, (∃ x o, (⟨i, j, x, o⟩ : Edge ℕ ℝ) ∈ g.edges) ↔ i < d ∧ j < d ∧ V i j ≠ 0) ∧
      ∀ i j x o, (⟨i, j, x, o⟩ : Edge ℕ ℝ) ∈ g.edges → |x - V i j| < ε := by
  obtain ⟨δ, hδ, hnear⟩ := identified_near hV hε
  refine ⟨δ, hδ, fun X v minimize fuel beta a g w₀ hX hv hE hm h hmax r2 r3 hb hbδ hopt hw htol hthr hbig => ?_⟩
  subst hX
  obtain ⟨-, -, s, hs, rfl⟩ := fromNumpyLasso_ok.1 h
  have hscore : expScore (matSplit X.cols s.wEst) ≤ a.hTol :=
    WithTop.coe_le_coe.1 ((learnLoop_score hs hmax).1 (warnsLasso_false hs hw))
  have hm0 : matSplit X.cols w₀ = fun i j : Fin X.cols => V i j := by
    funext i j
    exact r2 i i.2 j j.2
  have hbest := learnLoop_best (problemLasso_penalised beta X) hm hs hmax (boxLasso_zero _ _)
    (by rw [hm0]; exact (expScore_eq_zero_iff _).2 hV) hopt
  rw [squaredError_congr X r2, r3] at hbest
  have hsum : 0 ≤ beta * s.wEst.sum := mul_nonneg hb (sum_nonneg_of_box (learnLoop_inBox hm hs (boxLasso_zero _ _)))
  have hclose := hnear X v rfl hv hE (splitMatrix X.cols s.wEst) (by linarith) (hscore.trans htol)
  have hedge : ∀ i j x o, (⟨i, j, x, o⟩ : Edge ℕ ℝ) ∈
      (ofMatrix X.cols fun i j => cutStrict a.wThreshold (splitMatrix X.cols s.wEst i j)).edges ↔
      i < X.cols ∧ j < X.cols ∧ splitMatrix X.cols s.wEst i j = x ∧ a.wThreshold ≤ |x| ∧ o = "unknown" := by
    intro i j x o
    rw [mem_ofMatrix]
    simp only
    constructor
    · rintro ⟨h1, h2, h3, h4, h5⟩
      have h6 := cutStrict_ne_zero.1 h3
      rw [cutStrict_eq h3] at h4
      subst h4
      exact ⟨h1, h2, rfl, h6.2, h5⟩
    · rintro ⟨h1, h2, rfl, h5, h6⟩
      have h3 := cutStrict_ne_zero.2 ⟨fun h0 => by rw [h0, abs_zero] at h5; linarith, h5⟩
      exact ⟨h1, h2, h3, (cutStrict_eq h3).symm, h6⟩
  constructor
  · intro i j
    constructor
    · rintro ⟨x, o, he⟩
      obtain ⟨h1, h2, rfl, h4, -⟩ := (hedge i j x o).1 he
      refine ⟨h1, h2, fun h0 => ?_⟩
      have := hclose i h1 j h2
      rw [h0, sub_zero] at this
      linarith
    · rintro ⟨h1, h2, h3⟩
      refine ⟨_, _, (hedge i j _ _).2 ⟨h1, h2, rfl, ?_, rfl⟩⟩
      have h4 := hbig i h1 j h2 h3
      have h5 := hclose i h1 j h2
      have h6 := abs_sub_abs_le_abs_sub (V i j) (splitMatrix X.cols s.wEst i j)
      rw [abs_sub_comm] at h5
      linarith
  · intro i j x o he
    obtain ⟨h1, h2, rfl, -, -⟩ := (hedge i j x o).1 he
    exact hclose i h1 j h2

/-- **C125**, convergence: if the optimiser does not miss acyclic weights `V` that fit well enough for the tolerance, and there are
enough iterations, then no warning is given. -/
theorem notears_no_warning {minimize : Minimizer ℝ} {fuel : ℕ} {X : Data ℝ} {a : Params ℝ ℕ} {g : Graph ℕ ℝ} {V : ℕ → ℕ → ℝ}
    (hm : RespectsBounds minimize) (h : notears minimize fuel X a = .ok g) (hmax : a.maxIter ≠ 0) (hV : AcyclicWeights X.cols V)
    (hopt : NotWorse (problem X) minimize (box X.cols a.tabu) (rowMajor X.cols V)) (ht : 0 ≤ a.hTol)
    (hlim : 2 * squaredError X V ≤ 10 ^ 19 * a.hTol ^ 2) (hit : 2 * squaredError X V ≤ (a.hTol * 4 ^ (a.maxIter - 1)) ^ 2) :
    fromNumpyWarns (problem X) minimize fuel X a = false := by
  obtain ⟨-, -, s, hs, -⟩ := fromNumpy_ok.1 h
  have hF : squaredError X (reshape X.cols (rowMajor X.cols V)) = squaredError X V :=
    squaredError_congr X fun i hi j hj => rowMajor_reshape _ _ hi hj
  have hc := learnLoop_converges (c := 0) (problem_penalised X) hm hs hmax (box_zero _ _)
    (by rw [mat_rowMajor]; exact (expScore_eq_zero_iff _).2 hV) hopt
    (fun w _ => squaredError_nonneg _ _) ht (by rw [hF, sub_zero]; exact hlim) (by rw [hF, sub_zero]; exact hit)
  unfold fromNumpyWarns
  rw [hs]
  exact hc.2

/-- **C125**, convergence for `from_numpy_lasso`. -/
theorem notearsLasso_no_warning {minimize : Minimizer ℝ} {fuel : ℕ} {beta : ℝ} {X : Data ℝ} {a : Params ℝ ℕ} {g : Graph ℕ ℝ}
    {V : ℕ → ℕ → ℝ} {w₀ : List ℝ} (hm : RespectsBounds minimize) (h : notearsLasso minimize fuel beta X a = .ok g)
    (hmax : a.maxIter ≠ 0) (hb : 0 ≤ beta) (hV : AcyclicWeights X.cols V)
    (r2 : ∀ i < X.cols, ∀ j < X.cols, splitMatrix X.cols w₀ i j = V i j) (r3 : w₀.sum = absSum X.cols V)
    (hopt : NotWorse (problemLasso beta X) minimize (boxLasso X.cols a.tabu) w₀) (ht : 0 ≤ a.hTol)
    (hlim : 2 * lassoError beta X V ≤ 10 ^ 19 * a.hTol ^ 2)
    (hit : 2 * lassoError beta X V ≤ (a.hTol * 4 ^ (a.maxIter - 1)) ^ 2) :
    fromNumpyLassoWarns (problemLasso beta X) minimize fuel X a = false := by
  obtain ⟨-, -, s, hs, -⟩ := fromNumpyLasso_ok.1 h
  have hm0 : matSplit X.cols w₀ = fun i j : Fin X.cols => V i j := by
    funext i j
    exact r2 i i.2 j j.2
  have hF : squaredError X (splitMatrix X.cols w₀) + beta * w₀.sum = lassoError beta X V := by
    rw [squaredError_congr X r2, r3]
    rfl
  have hc := learnLoop_converges (c := 0) (problemLasso_penalised beta X) hm hs hmax (boxLasso_zero _ _)
    (by rw [hm0]; exact (expScore_eq_zero_iff _).2 hV) hopt
    (fun w hw => add_nonneg (squaredError_nonneg _ _) (mul_nonneg hb (sum_nonneg_of_box hw))) ht
    (by rw [hF, sub_zero]; exact hlim) (by rw [hF, sub_zero]; exact hit)
  unfold fromNumpyLassoWarns
  rw [hs]
  exact hc.2

end Verif.Notears
