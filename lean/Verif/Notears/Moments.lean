import Verif.Notears.Objective

/-!
# What NOTEARS uses of the data (C110)

The learned graph depends on the data only through the mean products of pairs of columns.
-/

namespace Verif.Notears

open Matrix Finset

/-! ### Specification -/

/-- The mean of the products of the entries of columns `j` and `k`. -/
noncomputable def Data.meanProduct (X : Data ℝ) (j k : ℕ) : ℝ :=
  (∑ i ∈ Finset.range X.rows, (X.entry i j).getD 0 * (X.entry i k).getD 0) / X.rows

/-- Two arrays of finite numbers with at least one row, with the same columns as far as the mean products
tell. -/
structure SameProducts (X X' : Data ℝ) : Prop where
  finite : X.finite = true
  finite' : X'.finite = true
  rows : X.rows ≠ 0
  rows' : X'.rows ≠ 0
  cols : X'.cols = X.cols
  mean : ∀ j < X.cols, ∀ k < X.cols, X'.meanProduct j k = X.meanProduct j k

/-! ### The objective -/

section
variable {n n' d : ℕ} (X : Matrix (Fin n) (Fin d) ℝ) (X' : Matrix (Fin n') (Fin d) ℝ)

theorem loss_gram (W : Matrix (Fin d) (Fin d) ℝ) :
    loss X W = 0.5 * trace ((1 - W)ᵀ * ((n : ℝ)⁻¹ • (Xᵀ * X)) * (1 - W)) := by
  have h : ∑ i, ∑ j, ((X * (1 - W) : Matrix (Fin n) (Fin d) ℝ) i j) ^ 2 =
      trace ((X * (1 - W))ᵀ * (X * (1 - W))) := by
    rw [Finset.sum_comm]
    unfold trace
    refine Finset.sum_congr rfl fun j _ => ?_
    rw [Matrix.diag_apply, Matrix.mul_apply]
    refine Finset.sum_congr rfl fun i _ => ?_
    rw [Matrix.transpose_apply, sq]
  unfold loss
  rw [h, Matrix.transpose_mul, Matrix.mul_smul, Matrix.smul_mul, Matrix.trace_smul, smul_eq_mul]
  simp only [Matrix.mul_assoc]
  rw [div_eq_mul_inv, mul_assoc]

theorem objective_congr (h : (n : ℝ)⁻¹ • (Xᵀ * X) = (n' : ℝ)⁻¹ • (X'ᵀ * X')) (rho alpha : ℝ)
    (W : Matrix (Fin d) (Fin d) ℝ) : objective X rho alpha W = objective X' rho alpha W := by
  unfold objective
  rw [loss_gram, loss_gram, h]

theorem objGrad_congr (h : (n : ℝ)⁻¹ • (Xᵀ * X) = (n' : ℝ)⁻¹ • (X'ᵀ * X')) (rho alpha : ℝ)
    (W : Matrix (Fin d) (Fin d) ℝ) : objGrad X rho alpha W = objGrad X' rho alpha W := by
  unfold objGrad
  have hX : ∀ {m : ℕ} (Y : Matrix (Fin m) (Fin d) ℝ),
      (-1.0 / (m : ℝ)) • (Yᵀ * Y * (1 - W)) = (-1.0 : ℝ) • (((m : ℝ)⁻¹ • (Yᵀ * Y)) * (1 - W)) := by
    intro m Y
    rw [Matrix.smul_mul, smul_smul, div_eq_mul_inv]
  dsimp only
  rw [hX, hX, h]

end

theorem gram_eq {r d : ℕ} (e : ℕ → ℕ → Option ℝ) (j k : Fin d) :
    ((r : ℝ)⁻¹ • ((Data.matrix ⟨r, d, e⟩)ᵀ * Data.matrix ⟨r, d, e⟩) : Matrix (Fin d) (Fin d) ℝ) j k =
      Data.meanProduct ⟨r, d, e⟩ j k := by
  rw [Matrix.smul_apply, Matrix.mul_apply, smul_eq_mul, Data.meanProduct, div_eq_inv_mul]
  congr 1
  simp only [Matrix.transpose_apply, Data.matrix]
  exact Fin.sum_univ_eq_sum_range (fun i => (e i j).getD 0 * (e i k).getD 0) r

theorem gram_congr {r r' d : ℕ} {e e' : ℕ → ℕ → Option ℝ}
    (h : ∀ j < d, ∀ k < d, Data.meanProduct ⟨r', d, e'⟩ j k = Data.meanProduct ⟨r, d, e⟩ j k) :
    ((r : ℝ)⁻¹ • ((Data.matrix ⟨r, d, e⟩)ᵀ * Data.matrix ⟨r, d, e⟩) : Matrix (Fin d) (Fin d) ℝ) =
      (r' : ℝ)⁻¹ • ((Data.matrix ⟨r', d, e'⟩)ᵀ * Data.matrix ⟨r', d, e'⟩) := by
  ext j k
  rw [gram_eq, gram_eq]
  exact (h j j.2 k k.2).symm

/-- Both arrays give the same problem. -/
theorem problem_congr {X X' : Data ℝ} (h : SameProducts X X') : problem X' = problem X := by
  obtain ⟨r, d, e⟩ := X
  obtain ⟨r', d', e'⟩ := X'
  obtain ⟨-, -, -, -, hd, hm⟩ := h
  simp only at hd
  subst hd
  have hg := gram_congr hm
  simp only [problem, Problem.mk.injEq]
  refine ⟨?_, ?_, trivial⟩
  · funext rho alpha w
    congr 1
    funext a
    exact (objective_congr _ _ hg rho a _).symm
  · funext rho alpha w
    congr 1
    exact (objGrad_congr _ _ hg rho _ _).symm

theorem problemLasso_congr {X X' : Data ℝ} (h : SameProducts X X') (beta : ℝ) :
    problemLasso beta X' = problemLasso beta X := by
  obtain ⟨r, d, e⟩ := X
  obtain ⟨r', d', e'⟩ := X'
  obtain ⟨-, -, -, -, hd, hm⟩ := h
  simp only at hd
  subst hd
  have hg := gram_congr hm
  simp only [problemLasso, Problem.mk.injEq]
  refine ⟨?_, ?_, trivial⟩
  · funext rho alpha w
    congr 1
    funext a
    congr 1
    exact (objective_congr _ _ hg rho a _).symm
  · funext rho alpha w
    have := objGrad_congr (Data.matrix ⟨r, d', e⟩) (Data.matrix ⟨r', d', e'⟩) hg rho (alpha.untopD 0)
      (matSplit d' w)
    rw [this]

theorem size_iff {X X' : Data ℝ} (h : SameProducts X X') :
    (X'.rows * X'.cols = 0) ↔ X.rows * X.cols = 0 := by
  rw [Nat.mul_eq_zero, Nat.mul_eq_zero, h.cols]
  simp [h.rows, h.rows']

/-- **C110** for `from_numpy`: arrays with the same mean products give the same result, whatever the
optimiser does. -/
theorem notears_products {X X' : Data ℝ} (h : SameProducts X X') (minimize : Minimizer ℝ) (fuel : ℕ)
    (a : Params ℝ ℕ) : notears minimize fuel X' a = notears minimize fuel X a := by
  unfold notears fromNumpy learnStructure
  rw [problem_congr h, h.finite, h.finite', h.cols]
  simp only [show X'.rows * X.cols = 0 ↔ X.rows * X.cols = 0 by
    rw [← size_iff h, h.cols]]

/-- **C110** for `from_numpy_lasso`. -/
theorem notearsLasso_products {X X' : Data ℝ} (h : SameProducts X X') (minimize : Minimizer ℝ) (fuel : ℕ)
    (beta : ℝ) (a : Params ℝ ℕ) :
    notearsLasso minimize fuel beta X' a = notearsLasso minimize fuel beta X a := by
  unfold notearsLasso fromNumpyLasso learnStructureLasso
  rw [problemLasso_congr h, h.finite, h.finite', h.cols]
  simp only [show X'.rows * X.cols = 0 ↔ X.rows * X.cols = 0 by
    rw [← size_iff h, h.cols]]

/-! ### Special cases -/

/-- Every row `m` times, one copy of the data after the other. -/
def Data.repeated {K : Type} (X : Data K) (m : ℕ) : Data K :=
  ⟨m * X.rows, X.cols, fun i j => X.entry (i % X.rows) j⟩

/-- All values with the opposite sign. -/
noncomputable def Data.negated (X : Data ℝ) : Data ℝ := ⟨X.rows, X.cols, fun i j => (X.entry i j).map (- ·)⟩

theorem finite_iff {K : Type} {X : Data K} :
    X.finite = true ↔ ∀ i < X.rows, ∀ j < X.cols, (X.entry i j).isSome := by
  simp [Data.finite, List.all_eq_true]

theorem sum_range_mod {r : ℕ} (hr : r ≠ 0) (f : ℕ → ℝ) (m : ℕ) :
    ∑ i ∈ Finset.range (m * r), f (i % r) = m * ∑ i ∈ Finset.range r, f i := by
  induction m with
  | zero => simp
  | succ m ih =>
    rw [Nat.add_mul, one_mul, Finset.sum_range_add, ih]
    have : ∑ x ∈ Finset.range r, f ((m * r + x) % r) = ∑ x ∈ Finset.range r, f x := by
      refine Finset.sum_congr rfl fun x hx => ?_
      rw [Nat.mul_add_mod_self_right, Nat.mod_eq_of_lt (Finset.mem_range.1 hx)]
    rw [this]
    push_cast
    ring

/-- Repeating the data does not matter. -/
theorem repeated_same {X : Data ℝ} (hf : X.finite = true) (hr : X.rows ≠ 0) {m : ℕ} (hm : m ≠ 0) :
    SameProducts X (X.repeated m) := by
  refine ⟨hf, ?_, hr, Nat.mul_ne_zero hm hr, rfl, fun j _ k _ => ?_⟩
  · rw [finite_iff] at hf ⊢
    intro i _ j hj
    exact hf _ (Nat.mod_lt _ (Nat.pos_of_ne_zero hr)) j hj
  · unfold Data.meanProduct Data.repeated
    simp only
    rw [sum_range_mod hr (fun i => (X.entry i j).getD 0 * (X.entry i k).getD 0)]
    push_cast
    rw [mul_div_mul_left _ _ (by exact_mod_cast hm)]

/-- The sign of the data does not matter. -/
theorem negated_same {X : Data ℝ} (hf : X.finite = true) (hr : X.rows ≠ 0) : SameProducts X X.negated := by
  refine ⟨hf, ?_, hr, hr, rfl, fun j _ k _ => ?_⟩
  · rw [finite_iff] at hf ⊢
    intro i hi j hj
    have := hf i hi j hj
    simpa [Data.negated] using this
  · unfold Data.meanProduct Data.negated
    congr 1
    refine Finset.sum_congr rfl fun i _ => ?_
    simp only
    cases X.entry i j <;> cases X.entry i k <;> simp

/-- The order of the rows does not matter. -/
theorem rows_same {X X' : Data ℝ} (hf : X.finite = true) (hr : X.rows ≠ 0) (hr' : X'.rows = X.rows)
    (hc : X'.cols = X.cols) (τ : Equiv.Perm (Fin X.rows))
    (h : ∀ (i : Fin X.rows) (j : ℕ), j < X.cols → X'.entry i j = X.entry (τ i) j) : SameProducts X X' := by
  refine ⟨hf, ?_, hr, by rw [hr']; exact hr, hc, fun j hj k hk => ?_⟩
  · rw [finite_iff] at hf ⊢
    intro i hi j hj
    rw [hr'] at hi
    rw [hc] at hj
    have := h ⟨i, hi⟩ j hj
    simp only at this
    rw [this]
    exact hf _ (τ _).2 j hj
  · unfold Data.meanProduct
    rw [hr']
    congr 1
    rw [← Fin.sum_univ_eq_sum_range (fun i => (X'.entry i j).getD 0 * (X'.entry i k).getD 0) X.rows,
      ← Fin.sum_univ_eq_sum_range (fun i => (X.entry i j).getD 0 * (X.entry i k).getD 0) X.rows]
    rw [← Equiv.sum_comp τ (fun i : Fin X.rows => (X.entry i j).getD 0 * (X.entry i k).getD 0)]
    refine Finset.sum_congr rfl fun i _ => ?_
    rw [h i j hj, h i k hk]

/-- **C110**: learning from the data repeated, negated or with the rows in another order gives the same
result. -/
theorem notears_repeated {X : Data ℝ} (hf : X.finite = true) (hr : X.rows ≠ 0) {m : ℕ} (hm : m ≠ 0)
    (minimize : Minimizer ℝ) (fuel : ℕ) (a : Params ℝ ℕ) :
    notears minimize fuel (X.repeated m) a = notears minimize fuel X a ∧
    notears minimize fuel X.negated a = notears minimize fuel X a ∧
    ∀ (X' : Data ℝ) (τ : Equiv.Perm (Fin X.rows)), X'.rows = X.rows → X'.cols = X.cols →
      (∀ (i : Fin X.rows) (j : ℕ), j < X.cols → X'.entry i j = X.entry (τ i) j) →
      notears minimize fuel X' a = notears minimize fuel X a :=
  ⟨notears_products (repeated_same hf hr hm) _ _ _, notears_products (negated_same hf hr) _ _ _,
    fun _ τ h1 h2 h3 => notears_products (rows_same hf hr h1 h2 τ h3) _ _ _⟩

/-- A concrete case: three rows and two columns, each row twice. -/
example (minimize : Minimizer ℝ) (a : Params ℝ ℕ) :
    notears minimize 21 ⟨6, 2, fun i j => some ((i % 3 : ℕ) + j)⟩ a =
      notears minimize 21 ⟨3, 2, fun i j => some (i + j)⟩ a :=
  (notears_repeated (X := ⟨3, 2, fun i j => some (i + j)⟩) (by simp [Data.finite]) (by simp) (m := 2)
    (by simp) minimize 21 a).1

end Verif.Notears
