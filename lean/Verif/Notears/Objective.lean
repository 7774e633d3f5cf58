import Verif.Notears.Deriv
import Verif.Notears.Props

/-!
# The objective functions of NOTEARS

The objective, the gradient handed to the optimiser and the acyclicity score, over the reals.
-/

namespace Verif.Notears

open Matrix Finset

/-- The data as a matrix.  Only used for data that passed `Data.finite`. -/
def Data.matrix (X : Data ℝ) : Matrix (Fin X.rows) (Fin X.cols) ℝ := fun i j => (X.entry i j).getD 0

/-- `w.reshape([d, d])`. -/
noncomputable def mat (d : ℕ) (w : List ℝ) : Matrix (Fin d) (Fin d) ℝ := fun i j => reshape d w i j

/-- `W.flatten()` (numpy, row-major). -/
def flatten {d : ℕ} (W : Matrix (Fin d) (Fin d) ℝ) : List ℝ :=
  List.ofFn fun k : Fin (d * d) => W k.divNat k.modNat

section
variable {n d : ℕ} (X : Matrix (Fin n) (Fin d) ℝ)

/-- `0.5 / n * np.square(np.linalg.norm(X.dot(np.eye(d, d) - W), "fro"))`: `structure/notears.py:393`,
`490`. -/
noncomputable def loss (W : Matrix (Fin d) (Fin d) ℝ) : ℝ :=
  0.5 / n * ∑ i, ∑ j, ((X * (1 - W) : Matrix (Fin n) (Fin d) ℝ) i j) ^ 2

/-- `loss + 0.5 * rho * h * h + alpha * h`: `structure/notears.py:392-395`, `489-492`. -/
noncomputable def objective (rho alpha : ℝ) (W : Matrix (Fin d) (Fin d) ℝ) : ℝ :=
  let h := expScore W
  loss X W + 0.5 * rho * h * h + alpha * h

/-- `obj_grad`: `structure/notears.py:408-411`, `512-519`. -/
noncomputable def objGrad (rho alpha : ℝ) (W : Matrix (Fin d) (Fin d) ℝ) : Matrix (Fin d) (Fin d) ℝ :=
  let lossGrad := (-1.0 / (n : ℝ)) • (Xᵀ * X * (1 - W))
  let E := NormedSpace.exp (W ⊙ W)
  lossGrad + ((((rho * (trace E - d) + alpha) • Eᵀ) ⊙ W).map (· * 2))

end

/-- What `_learn_structure` optimises: `structure/notears.py:367-412`.  For `alpha = inf` (never reached)
the gradient is arbitrary. -/
noncomputable def problem (X : Data ℝ) : Problem ℝ where
  func rho alpha w := alpha.map fun a => objective X.matrix rho a (mat X.cols w)
  grad rho alpha w := flatten (objGrad X.matrix rho (alpha.untopD 0) (mat X.cols w))
  score w := (expScore (mat X.cols w) : ℝ)

/-- `wmat_pos - wmat_neg`: `structure/notears.py:483-489`, `505-512`, `540`. -/
noncomputable def matSplit (d : ℕ) (w : List ℝ) : Matrix (Fin d) (Fin d) ℝ := fun i j => splitMatrix d w i j

/-- What `_learn_structure_lasso` optimises: `structure/notears.py:458-524`. -/
noncomputable def problemLasso (beta : ℝ) (X : Data ℝ) : Problem ℝ where
  func rho alpha w := alpha.map fun a => objective X.matrix rho a (matSplit X.cols w) + beta * w.sum
  grad rho alpha w :=
    let obj := flatten (objGrad X.matrix rho (alpha.untopD 0) (matSplit X.cols w))
    (obj.map fun x => x + beta) ++ obj.map fun x => -x + beta
  score w := (expScore (matSplit X.cols w) : ℝ)

/-- `from_numpy` with its objective. -/
noncomputable def notears (minimize : Minimizer ℝ) (fuel : ℕ) (X : Data ℝ) (a : Params ℝ ℕ) :
    Except Err (Graph ℕ ℝ) := fromNumpy (problem X) minimize fuel X a

/-- `from_numpy_lasso` with its objective. -/
noncomputable def notearsLasso (minimize : Minimizer ℝ) (fuel : ℕ) (beta : ℝ) (X : Data ℝ)
    (a : Params ℝ ℕ) : Except Err (Graph ℕ ℝ) := fromNumpyLasso (problemLasso beta X) minimize fuel X a

/-! ### Specification -/

/-- On vectors of length `N`, `grad` is the gradient of `func`. -/
def IsGradient (N : ℕ) (func : List ℝ → WithTop ℝ) (grad : List ℝ → List ℝ) : Prop :=
  ∃ (f : (Fin N → ℝ) → ℝ) (g : (Fin N → ℝ) → Fin N → ℝ),
    (∀ v, func (List.ofFn v) = (f v : ℝ)) ∧ (∀ v, grad (List.ofFn v) = List.ofFn (g v)) ∧
    ∀ v, HasFDerivAt f (∑ k, g v k • (ContinuousLinearMap.proj k : (Fin N → ℝ) →L[ℝ] ℝ)) v

/-- A graph without directed cycles. -/
def Graph.Acyclic {N K : Type} (g : Graph N K) : Prop :=
  ∀ n, ¬ Relation.TransGen (fun u v => ∃ e ∈ g.edges, e.src = u ∧ e.dst = v) n n

/-! ### The gradient -/

section
variable {n d : ℕ} (X : Matrix (Fin n) (Fin d) ℝ)
variable {E : Type} [NormedAddCommGroup E] [NormedSpace ℝ E]

theorem hasFDerivAt_loss {φ : E → Matrix (Fin d) (Fin d) ℝ} {φ' : Fin d → Fin d → E →L[ℝ] ℝ} {x : E}
    (hφ : ∀ i j, HasFDerivAt (fun y => φ y i j) (φ' i j) x) :
    HasFDerivAt (fun y => loss X (φ y))
      (∑ i, ∑ j, ((-1.0 / (n : ℝ)) • (Xᵀ * X * (1 - φ x)) : Matrix (Fin d) (Fin d) ℝ) i j • φ' i j) x := by
  have hR : ∀ r j, HasFDerivAt (fun y => (X * (1 - φ y) : Matrix (Fin n) (Fin d) ℝ) r j) (∑ k, (-X r k) • φ' k j) x := by
    intro r j
    simp only [Matrix.mul_apply, Matrix.sub_apply]
    refine HasFDerivAt.fun_sum fun k _ => ?_
    have := ((hφ k j).const_sub ((1 : Matrix (Fin d) (Fin d) ℝ) k j)).const_mul (X r k)
    refine this.congr_fderiv ?_
    ext v
    simp
  have h2 : HasFDerivAt (fun y => loss X (φ y)) (((0.5 : ℝ) / n) • ∑ r, ∑ j,
      ((2 * (X * (1 - φ x) : Matrix (Fin n) (Fin d) ℝ) r j) • ∑ k, (-X r k) • φ' k j)) x := by
    unfold loss
    refine HasFDerivAt.const_mul ?_ _
    refine HasFDerivAt.fun_sum fun r _ => HasFDerivAt.fun_sum fun j _ => ?_
    refine ((hR r j).pow 2).congr_fderiv ?_
    simp
  refine h2.congr_fderiv ?_
  ext v
  simp only [ContinuousLinearMap.smul_apply, ContinuousLinearMap.sum_apply, smul_eq_mul, Matrix.smul_apply,
    Matrix.mul_assoc]
  simp only [Matrix.mul_apply (M := Xᵀ), Matrix.transpose_apply, Finset.mul_sum, Finset.sum_mul]
  rw [Finset.sum_comm' (t' := Finset.univ) (s' := fun _ => Finset.univ) (by simp)]
  simp_rw [Finset.sum_comm (s := (Finset.univ : Finset (Fin n)))]
  rw [Finset.sum_comm]
  refine Finset.sum_congr rfl fun i _ => Finset.sum_congr rfl fun j _ => Finset.sum_congr rfl fun r _ => ?_
  have e1 : (0.5 : ℝ) = 1 / 2 := by norm_num
  have e2 : (-1.0 : ℝ) = -1 := by norm_num
  rw [e1, e2]
  ring

theorem hasFDerivAt_expScore {φ : E → Matrix (Fin d) (Fin d) ℝ} {φ' : Fin d → Fin d → E →L[ℝ] ℝ} {x : E}
    (hφ : ∀ i j, HasFDerivAt (fun y => φ y i j) (φ' i j) x) :
    HasFDerivAt (fun y => expScore (φ y))
      (∑ i, ∑ j, (2 * (NormedSpace.exp (φ x ⊙ φ x)) j i * φ x i j) • φ' i j) x := by
  unfold expScore
  refine HasFDerivAt.sub_const _ ?_
  have h := hasFDerivAt_trace_exp_comp (φ := fun y => φ y ⊙ φ y)
    (φ' := fun i j => (2 * φ x i j) • φ' i j) (x := x) (by
      intro i j
      simp only [Matrix.hadamard_apply]
      refine ((hφ i j).mul (hφ i j)).congr_fderiv ?_
      ext v
      simp only [ContinuousLinearMap.add_apply, ContinuousLinearMap.smul_apply, smul_eq_mul]
      ring)
  refine h.congr_fderiv ?_
  refine Finset.sum_congr rfl fun i _ => Finset.sum_congr rfl fun j _ => ?_
  rw [smul_smul]
  congr 1
  ring

theorem hasFDerivAt_objective (rho alpha : ℝ) {φ : E → Matrix (Fin d) (Fin d) ℝ}
    {φ' : Fin d → Fin d → E →L[ℝ] ℝ} {x : E} (hφ : ∀ i j, HasFDerivAt (fun y => φ y i j) (φ' i j) x) :
    HasFDerivAt (fun y => objective X rho alpha (φ y))
      (∑ i, ∑ j, objGrad X rho alpha (φ x) i j • φ' i j) x := by
  have h1 := hasFDerivAt_loss X hφ
  have h2 := hasFDerivAt_expScore hφ
  have h3 := (h1.add ((h2.const_mul (0.5 * rho)).mul h2)).add (h2.const_mul alpha)
  refine HasFDerivAt.congr_fderiv (f := fun y => objective X rho alpha (φ y)) h3 ?_
  ext v
  simp only [ContinuousLinearMap.add_apply, ContinuousLinearMap.smul_apply, smul_eq_mul,
    ContinuousLinearMap.sum_apply, objGrad, Matrix.add_apply, Matrix.map_apply, Matrix.hadamard_apply,
    Matrix.smul_apply, Matrix.transpose_apply, add_mul, Finset.sum_add_distrib, Finset.mul_sum]
  rw [add_assoc, add_assoc]
  congr 1
  simp only [← Finset.sum_add_distrib]
  refine Finset.sum_congr rfl fun i _ => Finset.sum_congr rfl fun j _ => ?_
  unfold expScore
  simp only [Fintype.card_fin]
  ring

theorem getD_ofFn {N : ℕ} (v : Fin N → ℝ) {k : ℕ} (hk : k < N) : (List.ofFn v).getD k 0 = v ⟨k, hk⟩ := by
  rw [List.getD_eq_getElem _ _ (by simpa using hk)]
  simp

theorem cell_lt {d : ℕ} (i j : Fin d) : (i : ℕ) * d + j < d * d := by
  have h1 : (i : ℕ) + 1 ≤ d := i.2
  have h2 := Nat.mul_le_mul_right d h1
  rw [Nat.add_mul, one_mul] at h2
  have := j.2
  omega

theorem mat_ofFn {d : ℕ} (v : Fin (d * d) → ℝ) (i j : Fin d) :
    mat d (List.ofFn v) i j = v ⟨i * d + j, cell_lt i j⟩ := getD_ofFn v _

theorem sum_flat {d : ℕ} {M : Type} [AddCommMonoid M] (F : Fin d → Fin d → ℕ → M) :
    ∑ k : Fin (d * d), F k.divNat k.modNat k = ∑ i, ∑ j, F i j (i * d + j) := by
  rw [← Equiv.sum_comp finProdFinEquiv, Fintype.sum_prod_type]
  refine Finset.sum_congr rfl fun i _ => Finset.sum_congr rfl fun j _ => ?_
  have h := finProdFinEquiv.symm_apply_apply (i, j)
  have h1 : (finProdFinEquiv (i, j)).divNat = i := (Prod.mk.inj h).1
  have h2 : (finProdFinEquiv (i, j)).modNat = j := (Prod.mk.inj h).2
  rw [h1, h2]
  congr 1
  rw [finProdFinEquiv_apply_val]
  ring

end

/-- **C71** for `from_numpy`: the gradient given to the optimiser is the gradient of the objective. -/
theorem problem_gradient (X : Data ℝ) (rho alpha : ℝ) :
    IsGradient (X.cols * X.cols) ((problem X).func rho alpha) ((problem X).grad rho alpha) := by
  refine ⟨fun v => objective X.matrix rho alpha (mat X.cols (List.ofFn v)),
    fun v k => objGrad X.matrix rho alpha (mat X.cols (List.ofFn v)) k.divNat k.modNat,
    fun v => rfl, fun v => rfl, ?_⟩
  intro v
  have h := hasFDerivAt_objective X.matrix rho alpha
    (φ := fun v : Fin (X.cols * X.cols) → ℝ => mat X.cols (List.ofFn v))
    (φ' := fun i j => ContinuousLinearMap.proj ⟨i * X.cols + j, cell_lt i j⟩) (x := v) (by
      intro i j
      simp only [mat_ofFn]
      exact (ContinuousLinearMap.proj (R := ℝ) (φ := fun _ => ℝ) (⟨i * X.cols + j, cell_lt i j⟩ : Fin (X.cols * X.cols))).hasFDerivAt)
  refine h.congr_fderiv ?_
  ext u
  simp only [ContinuousLinearMap.sum_apply, ContinuousLinearMap.smul_apply, ContinuousLinearMap.proj_apply,
    smul_eq_mul]
  have := sum_flat (d := X.cols) (fun i j k =>
    objGrad X.matrix rho alpha (mat X.cols (List.ofFn v)) i j * (List.ofFn u).getD k 0)
  simp only [getD_ofFn u (Fin.isLt _), getD_ofFn u (cell_lt _ _)] at this
  exact this.symm

end Verif.Notears
