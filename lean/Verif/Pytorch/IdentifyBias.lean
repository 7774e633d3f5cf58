import Verif.Pytorch.Identify

/-!
# C136: the learned linear equations predict like the true ones

In the situation of C133 the constants that are learned are near the true ones as well, so that the learned equations give nearly the
same predictions as the true ones.
-/

namespace Verif.Notears

open Matrix Finset

/-- Weights near acyclic linear equations with errors of equal size fit the data almost as badly as these. -/
theorem nearby_error {d : ℕ} {V : ℕ → ℕ → ℝ} {κ : ℝ} (hV : AcyclicWeights d V) (hκ : 0 < κ) :
    ∃ δ > 0, ∀ (X : Data ℝ) (v : ℝ), X.cols = d → 0 < v → EqualErrors X V v (δ * v) → ∀ W : ℕ → ℕ → ℝ,
      (∀ i < d, ∀ j < d, |W i j - V i j| < δ) → squaredError X V - squaredError X W ≤ κ * v := by
  let B : Matrix (Fin d) (Fin d) ℝ := (1 - Matrix.of fun i j : Fin d => V i j)⁻¹
  have hB : (1 - Matrix.of fun i j : Fin d => V i j) * B = 1 :=
    Matrix.mul_nonsing_inv _ (by
      have := NoCycle.det (W := Matrix.of fun i j : Fin d => V i j) hV
      rw [this]; exact isUnit_one)
  have hB' : B * (1 - Matrix.of fun i j : Fin d => V i j) = 1 := mul_eq_one_comm.1 hB
  have hS : 0 ≤ ∑ i, ∑ k, |B i k| := Finset.sum_nonneg fun _ _ => Finset.sum_nonneg fun _ _ => abs_nonneg _
  generalize hSdef : ∑ i, ∑ k, |B i k| = S at hS
  have hd : (0 : ℝ) ≤ d := Nat.cast_nonneg d
  have hden : 0 < 2 * S + d + d ^ 2 + 1 := by positivity
  have hδ : 0 < min (1 / ((d : ℝ) + 1)) (2 * κ / (2 * S + d + d ^ 2 + 1)) := lt_min (by positivity) (by positivity)
  refine ⟨_, hδ, ?_⟩
  have hδ1 : min (1 / ((d : ℝ) + 1)) (2 * κ / (2 * S + d + d ^ 2 + 1)) * d ≤ 1 := by
    calc min (1 / ((d : ℝ) + 1)) (2 * κ / (2 * S + d + d ^ 2 + 1)) * d ≤ 1 / (d + 1) * d :=
          mul_le_mul_of_nonneg_right (min_le_left _ _) hd
      _ ≤ 1 := by rw [div_mul_eq_mul_div, one_mul, div_le_one (by positivity)]; linarith
  have hδ2 : min (1 / ((d : ℝ) + 1)) (2 * κ / (2 * S + d + d ^ 2 + 1)) * (2 * S + d + d ^ 2 + 1) ≤ 2 * κ := by
    rw [← le_div_iff₀ hden]
    exact min_le_right _ _
  generalize min (1 / ((d : ℝ) + 1)) (2 * κ / (2 * S + d + d ^ 2 + 1)) = δ at hδ hδ1 hδ2 ⊢
  intro X v hX hv hE W hW
  subst hX
  let T : Matrix (Fin X.cols) (Fin X.cols) ℝ := B * (1 - Matrix.of fun i j : Fin X.cols => W i j)
  have hT : 1 - (Matrix.of fun i j : Fin X.cols => W i j) = (1 - Matrix.of fun i j : Fin X.cols => V i j) * T := by
    rw [← Matrix.mul_assoc, hB, Matrix.one_mul]
  have hTii : ∀ i, 1 - 2 * (δ * ∑ k, |B i k|) ≤ T i i ^ 2 := by
    intro i
    have h1 : T i i = 1 - ∑ k, B i k * (W k i - V k i) := by
      have h2 : T = 1 - B * (Matrix.of fun i j : Fin X.cols => W i j - V i j) := by
        have h3 : (Matrix.of fun i j : Fin X.cols => W i j - V i j) =
            (1 - Matrix.of fun i j : Fin X.cols => V i j) - (1 - Matrix.of fun i j : Fin X.cols => W i j) := by
          ext i j
          simp
        rw [h3, Matrix.mul_sub, hB']
        simp [T]
      rw [h2, Matrix.sub_apply, Matrix.one_apply_eq, Matrix.mul_apply]
      rfl
    have h2 : |∑ k, B i k * (W k i - V k i)| ≤ δ * ∑ k, |B i k| := by
      refine (Finset.abs_sum_le_sum_abs _ _).trans ?_
      rw [Finset.mul_sum]
      refine Finset.sum_le_sum fun k _ => ?_
      rw [abs_mul, mul_comm]
      exact mul_le_mul_of_nonneg_right (hW k k.2 i i.2).le (abs_nonneg _)
    have h3 := (abs_le.1 h2).2
    rw [h1]
    nlinarith [sq_nonneg (∑ k, B i k * (W k i - V k i))]
  have hsum : (X.cols : ℝ) - 2 * δ * S ≤ ∑ i, ∑ j, T i j ^ 2 := by
    calc (X.cols : ℝ) - 2 * δ * S = ∑ i : Fin X.cols, (1 - 2 * (δ * ∑ k, |B i k|)) := by
          rw [Finset.sum_sub_distrib, ← Finset.mul_sum, ← Finset.mul_sum, hSdef]
          simp
          ring
      _ ≤ ∑ i, T i i ^ 2 := Finset.sum_le_sum fun i _ => hTii i
      _ ≤ _ := Finset.sum_le_sum fun i _ => Finset.single_le_sum (f := fun j => T i j ^ 2) (fun j _ => sq_nonneg _) (Finset.mem_univ i)
  have h1 := form_ge T _ (equal_matrix hE)
  have h2 : 2 * squaredError X W = ∑ j, ∑ a, ∑ b, T a j * T b j *
      (Matrix.of fun a b : Fin X.cols => X.residualProduct V a b) a b := squaredError_residual X V W hT
  rw [← h2] at h1
  have h3 : 2 * squaredError X V ≤ X.cols * (v + δ * v) := by
    rw [squaredError_self]
    calc ∑ j : Fin X.cols, X.residualProduct V j j ≤ ∑ _j : Fin X.cols, (v + δ * v) := by
          refine Finset.sum_le_sum fun j _ => ?_
          have := (abs_le.1 (hE j j.2 j j.2)).2
          rw [if_pos rfl] at this
          linarith
      _ = _ := by simp; ring
  have h4 : 0 ≤ v - δ * v * X.cols := by nlinarith
  have h5 := mul_le_mul_of_nonneg_left hsum h4
  have h6 : 0 ≤ v * (δ * X.cols * (2 * δ * S)) := by positivity
  have h7 : v * (δ * (2 * S + X.cols + (X.cols : ℝ) ^ 2 + 1)) ≤ v * (2 * κ) := mul_le_mul_of_nonneg_left hδ2 hv.le
  have h8 : 0 ≤ v * δ := by positivity
  nlinarith

theorem EqualErrors.mono {X : Data ℝ} {V : ℕ → ℕ → ℝ} {v δ δ' : ℝ} (h : EqualErrors X V v δ) (hle : δ ≤ δ') : EqualErrors X V v δ' :=
  fun j hj k hk => (h j hj k hk).trans hle

end Verif.Notears

namespace Verif.Pytorch

open Finset
open Verif.Notears (Minimizer RespectsBounds NotWorse Data squaredError EqualErrors AcyclicWeights)

/-! ### Specification -/

/-- What the linear equation for column `j` with the weights `V` gives for a row; the constant is there only with `use_bias`. -/
noncomputable def Frame.equation (X : Frame) (useBias : Bool) (V : ℕ → ℕ → ℝ) (row : ℕ → ℝ) (j : ℕ) : ℝ :=
  (if useBias then X.intercept V j else 0) + ∑ k ∈ range X.cols, V k j * row k

/-- How far a row is, in the columns other than `j`, from the mean of the data (from zero without `use_bias`). -/
noncomputable def Frame.distance (X : Frame) (useBias : Bool) (row : ℕ → ℝ) (j : ℕ) : ℝ :=
  ∑ k ∈ range X.cols with k ≠ j, |row k - if useBias then X.mean k else 0|

/-! ### Theorems -/

/-- No column has a weight for itself. -/
theorem fromNumpy_diag {minimize : Minimizer ℝ} {init : ℕ → ℝ} {fuel : ℕ} {X : Frame} {x : Args ℕ} {g : Learned ℕ}
    (hsd : SchemaDict x.schema) (hcont : AllContinuous X x.schema) (hlin : (hiddenUnits x.hidden).headD 0 = 0)
    (hm : RespectsBounds minimize) (h : fromNumpy minimize init fuel X x = .ok g) {j : ℕ} (hj : j < X.cols) :
    weightOf g.arch.d g.params j j = 0 := by
  obtain ⟨hp, -, -, harch, -⟩ := fromNumpy_cont hsd hcont h
  have had : g.arch.d = X.cols := by rw [harch]; rfl
  have hah : g.arch.hidden.headD 0 = 0 := by rw [harch]; exact hlin
  have hd2 : g.arch.dims.length ≤ 2 := by rw [linear_dims hah]; simp
  obtain ⟨p, s, hp', -, hs, rfl⟩ := fromNumpy_ok h
  rw [hp] at hp'
  cases hp'
  have := weight_zero ((fit_result hs).1 hm (initParams_inBox _ _ _)) (i := j) (j := j) (hj.trans_eq had.symm) (hj.trans_eq had.symm)
    (fun hper => hper.1 rfl) 0 (Arch.m1_pos _)
  rw [Arch.pos, Arch.m1_linear (archOf x X.cols) hd2, mul_one, add_zero] at this
  exact this

/-- The learned weights and constants. -/
theorem fromNumpy_near {d : ℕ} {V : ℕ → ℕ → ℝ} {ε : ℝ} (hV : AcyclicWeights d V) (hε : 0 < ε) :
    ∃ δ > 0, ∀ (X : Frame) (v : ℝ) (minimize : Minimizer ℝ) (init : ℕ → ℝ) (fuel : ℕ) (x : Args ℕ) (g : Learned ℕ),
      X.WF → X.cols = d → SchemaDict x.schema → AllContinuous X x.schema → (hiddenUnits x.hidden).headD 0 = 0 → 0 < v →
      EqualErrors (X.real x.useBias) V v (δ * v) → RespectsBounds minimize → fromNumpy minimize init fuel X x = .ok g →
      x.maxIter ≠ 0 → 0 ≤ x.lasso → 0 ≤ x.ridge → penalty d x.lasso x.ridge V ≤ δ * v →
      NotWorse (torchProblem g.arch g.encs (X.rows.map realRow) x.lasso x.ridge) minimize (boundsOf g.arch x.tabu)
        (linearParams d x.useBias V (X.intercept V)) →
      g.score ≤ δ →
      (∀ i < d, ∀ j < d, |weightOf g.arch.d g.params i j - V i j| < ε) ∧
      (x.useBias = true → ∀ j < d, |X.intercept (weightOf g.arch.d g.params) j - g.params.getD (g.arch.d * g.arch.d + j) 0| ≤ ε * √v) := by
  have hκ : 0 < ε ^ 2 / 4 := by positivity
  obtain ⟨δ₁, hδ₁, hnb⟩ := Notears.nearby_error hV hκ
  obtain ⟨δ₂, hδ₂, hnear⟩ := Notears.identified_continuous (V := V) Notears.polyScore_continuous Notears.noCycle_of_polyScore hV
    (lt_min hε hδ₁)
  have hδ : 0 < min (min δ₁ δ₂) (ε ^ 2 / 4) := lt_min (lt_min hδ₁ hδ₂) hκ
  refine ⟨_, hδ, ?_⟩
  have hle₁ : min (min δ₁ δ₂) (ε ^ 2 / 4) ≤ δ₁ := (min_le_left _ _).trans (min_le_left _ _)
  have hle₂ : min (min δ₁ δ₂) (ε ^ 2 / 4) ≤ δ₂ := (min_le_left _ _).trans (min_le_right _ _)
  have hle₃ : min (min δ₁ δ₂) (ε ^ 2 / 4) ≤ ε ^ 2 / 4 := min_le_right _ _
  generalize min (min δ₁ δ₂) (ε ^ 2 / 4) = δ at hδ hle₁ hle₂ hle₃ ⊢
  intro X v minimize init fuel x g hwf hX hsd hcont hlin hv hE hm h hmax hlasso hridge hpen hopt hsc
  subst hX
  obtain ⟨hbest, hscore⟩ := fromNumpy_linear_best hV hwf hsd hcont hlin hm h hmax hopt
  have hpenw := penalty_nonneg (d := X.cols) hlasso hridge (weightOf g.arch.d g.params)
  have hsum : 0 ≤ ∑ j ∈ range X.cols, (X.intercept (weightOf g.arch.d g.params) j - g.params.getD (g.arch.d * g.arch.d + j) 0) ^ 2 :=
    Finset.sum_nonneg fun _ _ => sq_nonneg _
  have hbw : 0 ≤ (if x.useBias then 1 / 2 * ∑ j ∈ range X.cols,
      (X.intercept (weightOf g.arch.d g.params) j - g.params.getD (g.arch.d * g.arch.d + j) 0) ^ 2 else 0) := by
    split_ifs
    · linarith
    · exact le_refl _
  have hv1 := mul_le_mul_of_nonneg_right hle₁ hv.le
  have hv2 := mul_le_mul_of_nonneg_right hle₂ hv.le
  have hv3 := mul_le_mul_of_nonneg_right hle₃ hv.le
  have hclose := hnear (X.real x.useBias) v rfl hv (hE.mono hv2) (weightOf g.arch.d g.params) (by linarith) (by
    rw [hscore] at hsc
    exact hsc.trans hle₂)
  refine ⟨fun i hi j hj => (hclose i hi j hj).trans_le (min_le_left _ _), fun hb j hj => ?_⟩
  have hlow := hnb (X.real x.useBias) v rfl hv (hE.mono hv1) (weightOf g.arch.d g.params) fun i hi j hj =>
    (hclose i hi j hj).trans_le (min_le_right _ _)
  rw [if_pos hb] at hbest
  have hone := Finset.single_le_sum (f := fun j =>
    (X.intercept (weightOf g.arch.d g.params) j - g.params.getD (g.arch.d * g.arch.d + j) 0) ^ 2) (fun j _ => sq_nonneg _)
    (Finset.mem_range.2 hj)
  refine abs_le_of_sq_le_sq ?_ (by positivity)
  rw [mul_pow, Real.sq_sqrt hv.le]
  linarith

/-- **C136**: in the situation of C133 the learned network predicts every column of every row nearly as the true equation does. -/
theorem fromNumpy_predicts {d : ℕ} {V : ℕ → ℕ → ℝ} {ε : ℝ} (hV : AcyclicWeights d V) (hε : 0 < ε) :
    ∃ δ > 0, ∀ (X : Frame) (v : ℝ) (minimize : Minimizer ℝ) (init : ℕ → ℝ) (fuel : ℕ) (x : Args ℕ) (g : Learned ℕ),
      X.WF → X.cols = d → SchemaDict x.schema → AllContinuous X x.schema → (hiddenUnits x.hidden).headD 0 = 0 → 0 < v →
      EqualErrors (X.real x.useBias) V v (δ * v) → RespectsBounds minimize → fromNumpy minimize init fuel X x = .ok g →
      x.maxIter ≠ 0 → 0 ≤ x.lasso → 0 ≤ x.ridge → penalty d x.lasso x.ridge V ≤ δ * v →
      NotWorse (torchProblem g.arch g.encs (X.rows.map realRow) x.lasso x.ridge) minimize (boundsOf g.arch x.tabu)
        (linearParams d x.useBias V (X.intercept V)) →
      g.score ≤ δ → ∀ (row : ℕ → ℝ), ∀ j < d,
      |forward g.arch (g.arch.net g.params) row j - X.equation x.useBias V row j| ≤ ε * (√v + X.distance x.useBias row j) := by
  obtain ⟨δ, hδ, hnear⟩ := fromNumpy_near hV hε
  refine ⟨δ, hδ, fun X v minimize init fuel x g hwf hX hsd hcont hlin hv hE hm h hmax hlasso hridge hpen hopt hsc row j hj => ?_⟩
  obtain ⟨hw, hb⟩ := hnear X v minimize init fuel x g hwf hX hsd hcont hlin hv hE hm h hmax hlasso hridge hpen hopt hsc
  subst hX
  obtain ⟨-, -, -, harch, -⟩ := fromNumpy_cont hsd hcont h
  have had : g.arch.d = X.cols := by rw [harch]; rfl
  have hah : g.arch.hidden.headD 0 = 0 := by rw [harch]; exact hlin
  have hau : g.arch.useBias = x.useBias := by rw [harch]; rfl
  have hfw : forward g.arch (g.arch.net g.params) row j =
      ∑ k ∈ range X.cols, weightOf g.arch.d g.params k j * row k +
        (if x.useBias then g.params.getD (g.arch.d * g.arch.d + j) 0 else 0) := by
    rw [linear_forward hah g.params [], bias_linear hah g.params (by rw [had]; exact hj), hau]
    congr 1
    rw [had]
    refine Finset.sum_congr rfl fun k hk => ?_
    rw [meanEffect_linear hah g.params [] (by rw [had]; exact Finset.mem_range.1 hk) (by rw [had]; exact hj), had]
  have hdiff : |∑ k ∈ range X.cols, (weightOf g.arch.d g.params k j - V k j) * (row k - if x.useBias then X.mean k else 0)| ≤
      ε * X.distance x.useBias row j := by
    have hself : weightOf g.arch.d g.params j j - V j j = 0 := by
      rw [fromNumpy_diag hsd hcont hlin hm h hj, show V j j = 0 from Notears.NoCycle.diag hV ⟨j, hj⟩, sub_zero]
    refine (Finset.abs_sum_le_sum_abs _ _).trans ?_
    unfold Frame.distance
    rw [Finset.mul_sum, Finset.sum_filter]
    refine Finset.sum_le_sum fun k hk => ?_
    by_cases hkj : k = j
    · rw [if_neg (not_not.2 hkj), hkj, hself, zero_mul, abs_zero]
    rw [if_pos hkj, abs_mul]
    exact mul_le_mul_of_nonneg_right (hw k (Finset.mem_range.1 hk) j hj).le (abs_nonneg _)
  rw [hfw]
  unfold Frame.equation
  by_cases hub : x.useBias = true
  · have hbj := hb hub j hj
    rw [abs_sub_comm] at hbj
    simp only [hub, if_true] at hdiff ⊢
    have heq : ∑ k ∈ range X.cols, weightOf g.arch.d g.params k j * row k + g.params.getD (g.arch.d * g.arch.d + j) 0 -
        (X.intercept V j + ∑ k ∈ range X.cols, V k j * row k) =
        ∑ k ∈ range X.cols, (weightOf g.arch.d g.params k j - V k j) * (row k - X.mean k) +
          (g.params.getD (g.arch.d * g.arch.d + j) 0 - X.intercept (weightOf g.arch.d g.params) j) := by
      unfold Frame.intercept
      have : ∑ k ∈ range X.cols, (weightOf g.arch.d g.params k j - V k j) * (row k - X.mean k) =
          ∑ k ∈ range X.cols, weightOf g.arch.d g.params k j * row k - ∑ k ∈ range X.cols, V k j * row k -
            ∑ k ∈ range X.cols, X.mean k * weightOf g.arch.d g.params k j + ∑ k ∈ range X.cols, X.mean k * V k j := by
        rw [← Finset.sum_sub_distrib, ← Finset.sum_sub_distrib, ← Finset.sum_add_distrib]
        exact Finset.sum_congr rfl fun k _ => by ring
      rw [this]
      ring
    rw [heq]
    refine (abs_add_le _ _).trans ?_
    linarith
  · rw [Bool.not_eq_true] at hub
    simp only [hub, Bool.false_eq_true, if_false, sub_zero, add_zero, zero_add] at hdiff ⊢
    rw [← Finset.sum_sub_distrib]
    have : ∑ k ∈ range X.cols, (weightOf g.arch.d g.params k j * row k - V k j * row k) =
        ∑ k ∈ range X.cols, (weightOf g.arch.d g.params k j - V k j) * row k := Finset.sum_congr rfl fun k _ => by ring
    rw [this]
    refine hdiff.trans ?_
    have : 0 ≤ ε * √v := by positivity
    linarith

end Verif.Pytorch
