import Mathlib.LinearAlgebra.Matrix.Reindex
import Verif.Notears.Objective
import Verif.Notears.PropsPandas

/-!
# Learning does not depend on the order of the columns and rows (C109)

In exact arithmetic: the learning problem for reordered data is the reordered problem, so that an
optimiser that treats all coordinates alike leads to the same graph.
-/

namespace Verif.Notears

open Matrix Finset

/-! ### Specification -/

/-- `w'` lists the entries of `w` in another order: entry `k` of `w'` is entry `π k` of `w`. -/
structure Reordered {α : Type} {n : ℕ} (π : Equiv.Perm (Fin n)) (w w' : List α) : Prop where
  length : w.length = n
  length' : w'.length = n
  entry : ∀ k : Fin n, w'[(k : ℕ)]? = w[(π k : ℕ)]?

/-- An optimiser that treats all coordinates alike: for a reordered problem it returns the reordered
point. -/
def OrderBlind {K : Type} (minimize : Minimizer K) : Prop :=
  ∀ (n : ℕ) (π : Equiv.Perm (Fin n)) (k : ℕ) (f f' : List K → WithTop K) (g g' : List K → List K)
    (w w' : List K) (b b' : List (Bound K)),
    (∀ u u', Reordered π u u' → f' u' = f u ∧ Reordered π (g u) (g' u')) →
    Reordered π w w' → Reordered π b b' → Reordered π (minimize k f g w b) (minimize k f' g' w' b')

/-- `X'` is the data frame `X` with its columns, each with its name, and its rows in another order. -/
structure SameFrame {C K : Type} (X X' : DataFrame C K) : Prop where
  rows : X'.rows = X.rows
  perm : ∃ (τ : Equiv.Perm (Fin X.rows)) (σ : Equiv.Perm (Fin X.cols.length)),
    Reordered σ X.cols X'.cols ∧ Reordered σ X.numeric X'.numeric ∧
    ∀ (i : Fin X.rows) (j : Fin X.cols.length), X'.entry i j = X.entry (τ i) (σ j)

/-! ### Loops -/

section
variable {K : Type} [Field K] [LinearOrder K] {n : ℕ} {π : Equiv.Perm (Fin n)}

/-- The problem `P'` is `P` in other coordinates. -/
def Problem.Moved (π : Equiv.Perm (Fin n)) (P P' : Problem K) : Prop :=
  ∀ u u', Reordered π u u' → P'.score u' = P.score u ∧
    ∀ rho alpha, P'.func rho alpha u' = P.func rho alpha u ∧
      Reordered π (P.grad rho alpha u) (P'.grad rho alpha u')

/-- The same values of the local variables, up to the order of the coordinates. -/
structure St.Moved (π : Equiv.Perm (Fin n)) (s s' : St K) : Prop where
  wEst : Reordered π s.wEst s'.wEst
  wNew : Reordered π s.wNew s'.wNew
  rho : s'.rho = s.rho
  alpha : s'.alpha = s.alpha
  h : s'.h = s.h
  hNew : s'.hNew = s.hNew
  calls : s'.calls = s.calls
  warned : s'.warned = s.warned

variable {P P' : Problem K} {minimize : Minimizer K} {bnds bnds' : List (Bound K)}

theorem inner_moved (hm : OrderBlind minimize) (hP : Problem.Moved π P P') (hb : Reordered π bnds bnds')
    (fuel : ℕ) {s s' : St K} (hs : St.Moved π s s') :
    Option.Rel (St.Moved π) (inner P minimize bnds fuel s) (inner P' minimize bnds' fuel s') := by
  induction fuel generalizing s s' with
  | zero =>
    unfold inner
    rw [hs.rho, hs.h, hs.hNew]
    split
    · exact .none
    · exact .some hs
  | succ fuel ih =>
    unfold inner
    rw [hs.rho, hs.h, hs.hNew, hs.calls, hs.alpha]
    split
    · have hw := hm n π s.calls (P.func s.rho s.alpha) (P'.func s.rho s.alpha) (P.grad s.rho s.alpha)
        (P'.grad s.rho s.alpha) s.wEst s'.wEst bnds bnds'
        (fun u u' hu => (hP u u' hu).2 _ _) hs.wEst hb
      have hsc := (hP _ _ hw).1
      dsimp only
      rw [hsc]
      exact ih ⟨hs.wEst, hw, rfl, rfl, rfl, rfl, rfl, hs.warned⟩
    · exact .some hs

theorem outer_moved (hm : OrderBlind minimize) (hP : Problem.Moved π P P') (hb : Reordered π bnds bnds')
    (hTol : K) (fuel k : ℕ) {s s' : St K} (hs : St.Moved π s s') :
    Option.Rel (St.Moved π) (outer P minimize bnds hTol fuel k s)
      (outer P' minimize bnds' hTol fuel k s') := by
  induction k generalizing s s' with
  | zero => exact .some hs
  | succ k ih =>
    unfold outer
    have h := inner_moved hm hP hb fuel hs
    cases h1 : inner P minimize bnds fuel s <;> cases h2 : inner P' minimize bnds' fuel s' <;>
      rw [h1, h2] at h
    · exact .none
    · cases h
    · cases h
    · rename_i a b
      cases h with
      | some h =>
        dsimp only
        rw [h.hNew, h.alpha, h.rho]
        split
        · exact .some ⟨h.wNew, h.wNew, rfl, rfl, rfl, rfl, h.calls, h.warned⟩
        · exact ih ⟨h.wNew, h.wNew, rfl, rfl, rfl, rfl, h.calls, rfl⟩

theorem reordered_replicate {α : Type} (a : α) {m : ℕ} (h : m = n) :
    Reordered π (List.replicate m a) (List.replicate m a) := by
  subst h
  refine ⟨by simp, by simp, fun k => ?_⟩
  simp

theorem learnLoop_moved (hm : OrderBlind minimize) (hP : Problem.Moved π P P')
    (hb : Reordered π bnds bnds') {m : ℕ} (h : m = n) (maxIter : ℕ) (hTol : K) (fuel : ℕ) :
    Option.Rel (St.Moved π) (learnLoop P minimize bnds m maxIter hTol fuel)
      (learnLoop P' minimize bnds' m maxIter hTol fuel) :=
  outer_moved hm hP hb hTol fuel maxIter
    ⟨reordered_replicate 0 h, reordered_replicate 0 h, rfl, rfl, rfl, rfl, rfl, rfl⟩

end

/-! ### Vectors of cells -/

/-- The order of the cells of a matrix whose rows and columns are reordered. -/
def cellPerm {d : ℕ} (σ : Equiv.Perm (Fin d)) : Equiv.Perm (Fin (d * d)) :=
  finProdFinEquiv.symm.trans ((Equiv.prodCongr σ σ).trans finProdFinEquiv)

theorem cellPerm_cell {d : ℕ} (σ : Equiv.Perm (Fin d)) (i j : Fin d) :
    (cellPerm σ ⟨i * d + j, cell_lt i j⟩ : ℕ) = σ i * d + σ j := by
  have h : (⟨i * d + j, cell_lt i j⟩ : Fin (d * d)) = finProdFinEquiv (i, j) := by
    apply Fin.ext
    rw [finProdFinEquiv_apply_val]
    simp only
    ring
  rw [h]
  simp only [cellPerm, Equiv.trans_apply, Equiv.symm_apply_apply, Equiv.prodCongr_apply, Prod.map_apply,
    finProdFinEquiv_apply_val]
  ring

theorem exists_cell {d : ℕ} (k : Fin (d * d)) : ∃ i j : Fin d, k = ⟨i * d + j, cell_lt i j⟩ := by
  refine ⟨(finProdFinEquiv.symm k).1, (finProdFinEquiv.symm k).2, ?_⟩
  conv_lhs => rw [← finProdFinEquiv.apply_symm_apply k]
  apply Fin.ext
  rw [finProdFinEquiv_apply_val]
  simp only
  ring

/-- A vector of cells is reordered when it is cell by cell. -/
theorem reordered_cells {α : Type} {d : ℕ} {σ : Equiv.Perm (Fin d)} {w w' : List α} :
    Reordered (cellPerm σ) w w' ↔ w.length = d * d ∧ w'.length = d * d ∧
      ∀ i j : Fin d, w'[(i : ℕ) * d + j]? = w[(σ i : ℕ) * d + σ j]? := by
  constructor
  · intro h
    refine ⟨h.length, h.length', fun i j => ?_⟩
    have := h.entry ⟨i * d + j, cell_lt i j⟩
    rwa [cellPerm_cell] at this
  · rintro ⟨h1, h2, h3⟩
    refine ⟨h1, h2, fun k => ?_⟩
    obtain ⟨i, j, rfl⟩ := exists_cell k
    rw [cellPerm_cell]
    exact h3 i j

theorem reshape_reordered {K : Type} [Field K] {d : ℕ} {σ : Equiv.Perm (Fin d)} {w w' : List K}
    (h : Reordered (cellPerm σ) w w') (i j : Fin d) : reshape d w' i j = reshape d w (σ i) (σ j) := by
  unfold reshape
  rw [List.getD_eq_getElem?_getD, List.getD_eq_getElem?_getD, (reordered_cells.1 h).2.2 i j]

theorem flatten_get {d : ℕ} (W : Matrix (Fin d) (Fin d) ℝ) (i j : Fin d) :
    (flatten W)[(i : ℕ) * d + j]? = some (W i j) := by
  unfold flatten
  have hk := cell_lt i j
  rw [List.getElem?_ofFn, dif_pos hk]
  have h : (⟨i * d + j, hk⟩ : Fin (d * d)) = finProdFinEquiv (i, j) := by
    apply Fin.ext
    rw [finProdFinEquiv_apply_val]
    simp only
    ring
  rw [h]
  have h' := finProdFinEquiv.symm_apply_apply (i, j)
  have h1 : (finProdFinEquiv (i, j)).divNat = i := (Prod.mk.inj h').1
  have h2 : (finProdFinEquiv (i, j)).modNat = j := (Prod.mk.inj h').2
  rw [h1, h2]

theorem flatten_length {d : ℕ} (W : Matrix (Fin d) (Fin d) ℝ) : (flatten W).length = d * d := by
  simp [flatten]

theorem flatten_reordered {d : ℕ} (σ : Equiv.Perm (Fin d)) (W : Matrix (Fin d) (Fin d) ℝ) :
    Reordered (cellPerm σ) (flatten W) (flatten (W.submatrix σ σ)) := by
  refine reordered_cells.2 ⟨flatten_length _, flatten_length _, fun i j => ?_⟩
  rw [flatten_get, flatten_get]
  rfl

theorem cells_map_reordered {β : Type} {d : ℕ} (σ : Equiv.Perm (Fin d)) (f f' : ℕ × ℕ → β)
    (h : ∀ i j : Fin d, f' (i, j) = f (σ i, σ j)) :
    Reordered (cellPerm σ) ((cells d).map f) ((cells d).map f') := by
  refine reordered_cells.2 ⟨by simp [cells_length], by simp [cells_length], fun i j => ?_⟩
  rw [List.getElem?_map, List.getElem?_map, cells_get i.2 j.2, cells_get (σ i).2 (σ j).2]
  simp [h]

theorem Reordered.perm {α : Type} {n : ℕ} {π : Equiv.Perm (Fin n)} {w w' : List α}
    (h : Reordered π w w') : w'.Perm w := by
  have h1 : w' = List.ofFn ((fun k : Fin n => w[(k : ℕ)]'(by rw [h.length]; exact k.2)) ∘ π) := by
    refine List.ext_getElem (by simp [h.length']) fun k hk hk' => ?_
    have := h.entry ⟨k, by rw [← h.length']; exact hk⟩
    simp only at this
    rw [List.getElem?_eq_getElem hk, List.getElem?_eq_getElem (by rw [h.length]; exact Fin.is_lt _)] at this
    simpa using this
  have h2 : w = List.ofFn (fun k : Fin n => w[(k : ℕ)]'(by rw [h.length]; exact k.2)) := by
    refine List.ext_getElem (by simp [h.length]) fun k hk hk' => ?_
    simp
  rw [h1]
  conv_rhs => rw [h2]
  exact Equiv.Perm.ofFn_comp_perm _ _

theorem Reordered.map {α β : Type} {n : ℕ} {π : Equiv.Perm (Fin n)} {w w' : List α}
    (h : Reordered π w w') (f : α → β) : Reordered π (w.map f) (w'.map f) := by
  refine ⟨by simp [h.length], by simp [h.length'], fun k => ?_⟩
  rw [List.getElem?_map, List.getElem?_map, h.entry]

/-- Both halves of a vector reordered. -/
def double {n : ℕ} (π : Equiv.Perm (Fin n)) : Equiv.Perm (Fin (n + n)) :=
  finSumFinEquiv.symm.trans ((Equiv.sumCongr π π).trans finSumFinEquiv)

theorem double_left {n : ℕ} (π : Equiv.Perm (Fin n)) (k : Fin n) :
    double π (Fin.castAdd n k) = Fin.castAdd n (π k) := by
  have h : Fin.castAdd n k = finSumFinEquiv (Sum.inl k) := (finSumFinEquiv_apply_left k).symm
  simp only [double, Equiv.trans_apply, h, Equiv.symm_apply_apply, Equiv.sumCongr_apply, Sum.map_inl]
  exact finSumFinEquiv_apply_left _

theorem double_right {n : ℕ} (π : Equiv.Perm (Fin n)) (k : Fin n) :
    double π (Fin.natAdd n k) = Fin.natAdd n (π k) := by
  have h : Fin.natAdd n k = finSumFinEquiv (Sum.inr k) := (finSumFinEquiv_apply_right k).symm
  simp only [double, Equiv.trans_apply, h, Equiv.symm_apply_apply, Equiv.sumCongr_apply, Sum.map_inr]
  exact finSumFinEquiv_apply_right _

theorem reordered_append {α : Type} {n : ℕ} {π : Equiv.Perm (Fin n)} {u u' v v' : List α}
    (hu : Reordered π u u') (hv : Reordered π v v') : Reordered (double π) (u ++ v) (u' ++ v') := by
  refine ⟨by simp [hu.length, hv.length], by simp [hu.length', hv.length'], fun k => ?_⟩
  refine Fin.addCases (fun k => ?_) (fun k => ?_) k
  · rw [double_left, List.getElem?_append_left (by simp [hu.length']),
      List.getElem?_append_left (by simp [hu.length])]
    exact hu.entry k
  · rw [double_right, List.getElem?_append_right (by simp [hu.length']),
      List.getElem?_append_right (by simp [hu.length])]
    simpa [hu.length, hu.length'] using hv.entry k

theorem reordered_take {α : Type} {n : ℕ} {π : Equiv.Perm (Fin n)} {w w' : List α}
    (h : Reordered (double π) w w') : Reordered π (w.take n) (w'.take n) := by
  refine ⟨by simp [h.length], by simp [h.length'], fun k => ?_⟩
  have := h.entry (Fin.castAdd n k)
  rw [double_left] at this
  rw [List.getElem?_take_of_lt k.2, List.getElem?_take_of_lt (π k).2]
  exact this

theorem reordered_drop {α : Type} {n : ℕ} {π : Equiv.Perm (Fin n)} {w w' : List α}
    (h : Reordered (double π) w w') : Reordered π (w.drop n) (w'.drop n) := by
  refine ⟨by simp [h.length], by simp [h.length'], fun k => ?_⟩
  have := h.entry (Fin.natAdd n k)
  rw [double_right] at this
  rw [List.getElem?_drop, List.getElem?_drop]
  exact this

theorem splitMatrix_reordered {K : Type} [Field K] [LinearOrder K] {d : ℕ} {σ : Equiv.Perm (Fin d)}
    {w w' : List K} (h : Reordered (double (cellPerm σ)) w w') (i j : Fin d) :
    splitMatrix d w' i j = splitMatrix d w (σ i) (σ j) := by
  unfold splitMatrix
  rw [sq, reshape_reordered (reordered_take h), reshape_reordered (reordered_drop h)]

/-! ### The objective -/

section
variable {n d : ℕ} (X : Matrix (Fin n) (Fin d) ℝ) (τ : Equiv.Perm (Fin n)) (σ : Equiv.Perm (Fin d))

theorem exp_reordered (A : Matrix (Fin d) (Fin d) ℝ) :
    NormedSpace.exp (A.submatrix σ σ) = (NormedSpace.exp A).submatrix σ σ := by
  have hc : Continuous (Matrix.reindexLinearEquiv ℝ ℝ σ.symm σ.symm) :=
    continuous_id.matrix_submatrix _ _
  have hc' : Continuous (Matrix.reindexLinearEquiv ℝ ℝ σ.symm σ.symm).symm :=
    continuous_id.matrix_submatrix _ _
  let e : Matrix (Fin d) (Fin d) ℝ ≃L[ℝ] Matrix (Fin d) (Fin d) ℝ :=
    ⟨Matrix.reindexLinearEquiv ℝ ℝ σ.symm σ.symm, hc, hc'⟩
  have hpow : ∀ k : ℕ, (A.submatrix σ σ) ^ k = e (A ^ k) := by
    intro k
    exact (map_pow (Matrix.reindexRingEquiv ℝ σ.symm) A k).symm
  have he : ∀ B, e B = B.submatrix σ σ := fun B => rfl
  rw [NormedSpace.exp_eq_tsum ℝ]
  dsimp only
  rw [← he (∑' n : ℕ, _), e.map_tsum]
  refine tsum_congr fun k => ?_
  rw [hpow, map_smul]

theorem trace_reordered (A : Matrix (Fin d) (Fin d) ℝ) : trace (A.submatrix σ σ) = trace A := by
  unfold trace
  exact Equiv.sum_comp σ fun i => A i i

/-- The acyclicity score does not depend on the order of the columns. -/
theorem expScore_reordered (W : Matrix (Fin d) (Fin d) ℝ) : expScore (W.submatrix σ σ) = expScore W := by
  unfold expScore
  have : W.submatrix σ σ ⊙ W.submatrix σ σ = (W ⊙ W).submatrix σ σ := rfl
  rw [this, exp_reordered, trace_reordered]

theorem residual_reordered (W : Matrix (Fin d) (Fin d) ℝ) :
    X.submatrix τ σ * (1 - W.submatrix σ σ) = (X * (1 - W)).submatrix τ σ := by
  have : (1 : Matrix (Fin d) (Fin d) ℝ) - W.submatrix σ σ = (1 - W).submatrix σ σ := by
    have h1 : (1 : Matrix (Fin d) (Fin d) ℝ).submatrix σ σ = 1 := Matrix.submatrix_one_equiv σ
    conv_lhs => rw [← h1]
    rfl
  rw [this, Matrix.submatrix_mul_equiv]

/-- The loss does not depend on the order of the columns and rows. -/
theorem loss_reordered (W : Matrix (Fin d) (Fin d) ℝ) :
    loss (X.submatrix τ σ) (W.submatrix σ σ) = loss X W := by
  unfold loss
  rw [residual_reordered]
  congr 1
  simp only [Matrix.submatrix_apply]
  rw [Equiv.sum_comp τ fun i => ∑ j, ((X * (1 - W) : Matrix (Fin n) (Fin d) ℝ) i (σ j)) ^ 2]
  refine Finset.sum_congr rfl fun i _ => ?_
  exact Equiv.sum_comp σ fun j => ((X * (1 - W) : Matrix (Fin n) (Fin d) ℝ) i j) ^ 2

/-- The objective does not depend on the order of the columns and rows. -/
theorem objective_reordered (rho alpha : ℝ) (W : Matrix (Fin d) (Fin d) ℝ) :
    objective (X.submatrix τ σ) rho alpha (W.submatrix σ σ) = objective X rho alpha W := by
  unfold objective
  rw [loss_reordered, expScore_reordered]

/-- The gradient is reordered with the columns. -/
theorem objGrad_reordered (rho alpha : ℝ) (W : Matrix (Fin d) (Fin d) ℝ) :
    objGrad (X.submatrix τ σ) rho alpha (W.submatrix σ σ) = (objGrad X rho alpha W).submatrix σ σ := by
  unfold objGrad
  have h1 : W.submatrix σ σ ⊙ W.submatrix σ σ = (W ⊙ W).submatrix σ σ := rfl
  have h2 : (X.submatrix τ σ)ᵀ = Xᵀ.submatrix σ τ := rfl
  dsimp only
  rw [h1, exp_reordered, trace_reordered, Matrix.mul_assoc, residual_reordered, h2,
    Matrix.submatrix_mul_equiv, Matrix.mul_assoc]
  rfl

end

/-! ### Learning from arrays -/

/-- `X'` is the array `X` with its rows reordered by `τ` and its columns by `σ`. -/
structure Data.Moved {K : Type} {r d : ℕ} (τ : Equiv.Perm (Fin r)) (σ : Equiv.Perm (Fin d))
    (X X' : Data K) : Prop where
  rows : X.rows = r
  rows' : X'.rows = r
  cols : X.cols = d
  cols' : X'.cols = d
  entry : ∀ (i : Fin r) (j : Fin d), X'.entry i j = X.entry (τ i) (σ j)

section
variable {r d : ℕ} {τ : Equiv.Perm (Fin r)} {σ : Equiv.Perm (Fin d)}

theorem problem_moved {X X' : Data ℝ} (h : Data.Moved τ σ X X') :
    Problem.Moved (cellPerm σ) (problem X) (problem X') := by
  obtain ⟨r2, d2, e1⟩ := X
  obtain ⟨r2, d2, e2⟩ := X'
  obtain ⟨hr, hr', hd, hd', he⟩ := h
  simp only at hr hr' hd hd' he
  subst hr hr' hd hd'
  intro u u' hu
  have hW : mat _ u' = (mat _ u).submatrix σ σ := by
    ext i j
    exact reshape_reordered hu i j
  have hX : Data.matrix ⟨r2, d2, e2⟩ = (Data.matrix ⟨r2, d2, e1⟩).submatrix τ σ := by
    ext i j
    simp only [Data.matrix, Matrix.submatrix_apply, he]
  refine ⟨?_, fun rho alpha => ⟨?_, ?_⟩⟩
  · simp only [problem]
    rw [hW, expScore_reordered]
  · simp only [problem]
    rw [hW, hX]
    congr 1
    funext a
    exact objective_reordered _ _ _ _ _ _
  · simp only [problem]
    rw [hW, hX]
    have := objGrad_reordered (Data.matrix ⟨r2, d2, e1⟩) τ σ rho (alpha.untopD 0) (mat _ u)
    rw [show objGrad (Matrix.submatrix (Data.matrix ⟨r2, d2, e1⟩) τ σ) rho (alpha.untopD 0)
      ((mat _ u).submatrix σ σ) = _ from this]
    exact flatten_reordered σ _

theorem problemLasso_moved {X X' : Data ℝ} (h : Data.Moved τ σ X X') (beta : ℝ) :
    Problem.Moved (double (cellPerm σ)) (problemLasso beta X) (problemLasso beta X') := by
  obtain ⟨r1, d1, e1⟩ := X
  obtain ⟨r2, d2, e2⟩ := X'
  obtain ⟨hr, hr', hd, hd', he⟩ := h
  simp only at hr hr' hd hd' he
  subst hr hr' hd hd'
  intro u u' hu
  have hW : matSplit _ u' = (matSplit _ u).submatrix σ σ := by
    ext i j
    exact splitMatrix_reordered hu i j
  have hX : Data.matrix ⟨r2, d2, e2⟩ = (Data.matrix ⟨r2, d2, e1⟩).submatrix τ σ := by
    ext i j
    simp only [Data.matrix, Matrix.submatrix_apply, he]
  refine ⟨?_, fun rho alpha => ⟨?_, ?_⟩⟩
  · simp only [problemLasso]
    rw [hW, expScore_reordered]
  · simp only [problemLasso]
    rw [hW, hX, hu.perm.sum_eq]
    congr 1
    funext a
    congr 1
    exact objective_reordered _ _ _ _ _ _
  · simp only [problemLasso]
    rw [hW, hX]
    have := objGrad_reordered (Data.matrix ⟨r2, d2, e1⟩) τ σ rho (alpha.untopD 0) (matSplit _ u)
    rw [show objGrad (Matrix.submatrix (Data.matrix ⟨r2, d2, e1⟩) τ σ) rho (alpha.untopD 0)
      ((matSplit _ u).submatrix σ σ) = _ from this]
    exact reordered_append ((flatten_reordered σ _).map _) ((flatten_reordered σ _).map _)

variable {K : Type} [Field K] [LinearOrder K]

omit [Field K] [LinearOrder K] in
theorem finite_moved {X X' : Data K} (h : Data.Moved τ σ X X') : X'.finite = X.finite := by
  rw [Bool.eq_iff_iff]
  simp only [Data.finite, List.all_eq_true, List.mem_range, h.rows, h.rows', h.cols, h.cols']
  constructor
  · intro hf i hi j hj
    have := hf (τ.symm ⟨i, hi⟩) (τ.symm ⟨i, hi⟩).2 (σ.symm ⟨j, hj⟩) (σ.symm ⟨j, hj⟩).2
    rw [h.entry] at this
    simpa using this
  · intro hf i hi j hj
    have := h.entry ⟨i, hi⟩ ⟨j, hj⟩
    simp only at this
    rw [this]
    exact hf _ (τ _).2 _ (σ _).2

theorem bound_moved {t t' : Tabu ℕ} (h : ∀ i j : Fin d, Permitted t' i j ↔ Permitted t (σ i) (σ j))
    (free : Bound K) (i j : Fin d) : bound t' free (i, j) = bound t free (σ i, σ j) := by
  by_cases hp : Permitted t' i j
  · rw [bound_free hp, bound_free ((h i j).1 hp)]
  · rw [bound_zero hp, bound_zero (fun hq => hp ((h i j).2 hq))]

/-- Two graphs on column positions that differ by the order of the columns. -/
def EdgesMoved (σ : Equiv.Perm (Fin d)) (g g' : Graph ℕ K) : Prop :=
  ∀ (i j : Fin d) (x : K) (o : String),
    (⟨i, j, x, o⟩ : Edge ℕ K) ∈ g'.edges ↔ (⟨σ i, σ j, x, o⟩ : Edge ℕ K) ∈ g.edges

/-- Both calls fail in the same way, or they return graphs that differ by the order of the columns. -/
def ResMoved (σ : Equiv.Perm (Fin d)) : Except Err (Graph ℕ K) → Except Err (Graph ℕ K) → Prop
  | .error e, .error e' => e' = e
  | .ok g, .ok g' => EdgesMoved σ g g'
  | _, _ => False

theorem ofMatrix_moved {W W' : ℕ → ℕ → K} (h : ∀ i j : Fin d, W' i j = W (σ i) (σ j)) :
    EdgesMoved σ (ofMatrix d W) (ofMatrix d W') := by
  intro i j x o
  rw [mem_ofMatrix, mem_ofMatrix]
  simp only [h, Fin.is_lt, true_and]

/-- The excluded edges of `t'` are those of `t`, in the other order of the columns. -/
def TabuMoved (σ : Equiv.Perm (Fin d)) (t t' : Tabu ℕ) : Prop :=
  ∀ i j : Fin d, Permitted t' i j ↔ Permitted t (σ i) (σ j)

variable {P P' : Problem K} {minimize : Minimizer K}

theorem fromNumpy_moved (hm : OrderBlind minimize) {X X' : Data K} (hX : Data.Moved τ σ X X')
    (hP : Problem.Moved (cellPerm σ) P P') {a a' : Params K ℕ} (ht : TabuMoved σ a.tabu a'.tabu)
    (h1 : a'.maxIter = a.maxIter) (h2 : a'.hTol = a.hTol) (h3 : a'.wThreshold = a.wThreshold)
    (fuel : ℕ) :
    ResMoved σ (fromNumpy P minimize fuel X a) (fromNumpy P' minimize fuel X' a') := by
  unfold fromNumpy learnStructure
  rw [finite_moved hX, hX.rows, hX.rows', hX.cols, hX.cols', h1, h2, h3]
  split
  · rfl
  · split
    · rfl
    · have h := learnLoop_moved hm hP
        (cells_map_reordered σ (bound a.tabu (none, none)) (bound a'.tabu (none, none))
          (bound_moved ht (none, none))) rfl a.maxIter a.hTol fuel
      cases e1 : learnLoop P minimize ((cells d).map (bound a.tabu (none, none))) (d * d) a.maxIter a.hTol
          fuel <;>
        cases e2 : learnLoop P' minimize ((cells d).map (bound a'.tabu (none, none))) (d * d) a.maxIter
          a.hTol fuel <;> rw [e1, e2] at h
      · rfl
      · cases h
      · cases h
      · cases h with
        | some h =>
          refine ofMatrix_moved fun i j => ?_
          rw [reshape_map _ _ _ (cutPlain_zero _), reshape_map _ _ _ (cutPlain_zero _),
            reshape_reordered h.wEst]

theorem fromNumpyLasso_moved (hm : OrderBlind minimize) {X X' : Data K} (hX : Data.Moved τ σ X X')
    (hP : Problem.Moved (double (cellPerm σ)) P P') {a a' : Params K ℕ}
    (ht : TabuMoved σ a.tabu a'.tabu) (h1 : a'.maxIter = a.maxIter) (h2 : a'.hTol = a.hTol)
    (h3 : a'.wThreshold = a.wThreshold) (fuel : ℕ) :
    ResMoved σ (fromNumpyLasso P minimize fuel X a) (fromNumpyLasso P' minimize fuel X' a') := by
  unfold fromNumpyLasso learnStructureLasso
  dsimp only
  rw [finite_moved hX, hX.rows, hX.rows', hX.cols, hX.cols', h1, h2, h3]
  split
  · rfl
  · split
    · rfl
    · have hb := cells_map_reordered σ (bound a.tabu ((some 0, none) : Bound K))
          (bound a'.tabu (some 0, none)) (bound_moved ht (some 0, none))
      have h := learnLoop_moved hm hP (reordered_append hb hb) (m := 2 * d * d) (by ring) a.maxIter
        a.hTol fuel
      generalize learnLoop P minimize _ (2 * d * d) a.maxIter a.hTol fuel = l1 at h ⊢
      generalize learnLoop P' minimize _ (2 * d * d) a.maxIter a.hTol fuel = l2 at h ⊢
      cases h with
      | none => rfl
      | some h =>
        refine ofMatrix_moved fun i j => ?_
        rw [splitMatrix_reordered h.wEst]

end

/-! ### Learning from data frames -/

section
variable {C : Type} [DecidableEq C] {K : Type} [Field K] [LinearOrder K]

theorem forall₂_mem_left {α β : Type} {R : α → β → Prop} {l : List α} {l' : List β}
    (h : List.Forall₂ R l l') {a : α} (ha : a ∈ l) : ∃ b ∈ l', R a b := by
  induction h with
  | nil => simp at ha
  | cons h1 _ ih =>
    rcases List.mem_cons.1 ha with rfl | ha
    · exact ⟨_, by simp, h1⟩
    · obtain ⟨b, hb, h⟩ := ih ha
      exact ⟨b, by simp [hb], h⟩

theorem forall₂_mem_right {α β : Type} {R : α → β → Prop} {l : List α} {l' : List β}
    (h : List.Forall₂ R l l') {b : β} (hb : b ∈ l') : ∃ a ∈ l, R a b :=
  forall₂_mem_left h.flip hb

theorem forall₂_nodup {α β γ : Type} {R : α → β → Prop} {f : α → γ} {l : List α} {l' : List β}
    (h : List.Forall₂ R l l') (hR : ∀ a b c, R a c → R b c → f a = f b) (hl : (l.map f).Nodup) :
    l'.Nodup := by
  induction h with
  | nil => exact List.nodup_nil
  | @cons a b l l' h1 h2 ih =>
    rw [List.map_cons, List.nodup_cons] at hl
    rw [List.nodup_cons]
    refine ⟨fun hb => hl.1 ?_, ih hl.2⟩
    obtain ⟨a', ha', h⟩ := forall₂_mem_right h2 hb
    exact List.mem_map.2 ⟨a', ha', hR _ _ _ h h1⟩

theorem getElem?_nodup {cols : List C} (hnd : cols.Nodup) {i j : ℕ} {c : C} (hi : cols[i]? = some c)
    (hj : cols[j]? = some c) : i = j := by
  obtain ⟨p1, p2⟩ := List.getElem?_eq_some_iff.1 hi
  obtain ⟨q1, q2⟩ := List.getElem?_eq_some_iff.1 hj
  exact (List.Nodup.getElem_inj_iff hnd).1 (p2.trans q2.symm)

/-- Excluded positions are the positions of excluded names. -/
theorem permitted_named {cols : List C} (hnd : cols.Nodup) {t : Tabu C} {t' : Tabu ℕ}
    (h : TabuNamed cols t t') {i j : ℕ} {u v : C} (hi : cols[i]? = some u) (hj : cols[j]? = some v) :
    Permitted t' i j ↔ Permitted t u v := by
  have hij : i ≠ j ↔ u ≠ v := by
    constructor
    · intro h1 h2
      subst h2
      exact h1 (getElem?_nodup hnd hi hj)
    · intro h1 h2
      subst h2
      rw [hi] at hj
      exact h1 (Option.some.inj hj)
  have he : (∀ te, t'.edges = some te → (i, j) ∉ te) ↔ ∀ te, t.edges = some te → (u, v) ∉ te := by
    have h1 := h.edges
    generalize t.edges = o at h1 ⊢
    generalize t'.edges = o' at h1 ⊢
    cases h1 with
    | none => simp
    | some h1 =>
      simp only [Option.some.injEq, forall_eq']
      rw [not_iff_not]
      constructor
      · intro hm
        obtain ⟨⟨a, b⟩, hab, k1, k2⟩ := forall₂_mem_right h1 hm
        simp only at k1 k2
        rw [hi] at k1
        rw [hj] at k2
        cases k1; cases k2
        exact hab
      · intro hm
        obtain ⟨⟨a, b⟩, hab, k1, k2⟩ := forall₂_mem_left h1 hm
        simp only at k1 k2
        rw [getElem?_nodup hnd hi k1, getElem?_nodup hnd hj k2]
        exact hab
  have hs : ∀ {o : Option (List C)} {o' : Option (List ℕ)} {k : ℕ} {c : C},
      Option.Rel (List.Forall₂ fun n i => cols[i]? = some n) o o' → cols[k]? = some c →
      ((∀ te, o' = some te → k ∉ te) ↔ ∀ te, o = some te → c ∉ te) := by
    intro o o' k c h1 hk
    cases h1 with
    | none => simp
    | some h1 =>
      simp only [Option.some.injEq, forall_eq']
      rw [not_iff_not]
      constructor
      · intro hm
        obtain ⟨a, ha, k1⟩ := forall₂_mem_right h1 hm
        rw [hk] at k1
        cases k1
        exact ha
      · intro hm
        obtain ⟨a, ha, k1⟩ := forall₂_mem_left h1 hm
        rw [getElem?_nodup hnd hk k1]
        exact ha
  unfold Permitted
  rw [hij, he, hs h.parents hi, hs h.children hj]

theorem fromPandasWith_reordered {learn learn' : Data K → Params K ℕ → Except Err (Graph ℕ K)}
    (hl : Learner learn) (hl' : Learner learn') {X X' : DataFrame C K} (hnd : X.cols.Nodup)
    (a : Params K C) {τ : Equiv.Perm (Fin X.rows)} {σ : Equiv.Perm (Fin X.cols.length)}
    (hc : Reordered σ X.cols X'.cols) (hn : Reordered σ X.numeric X'.numeric)
    (hlearn : ∀ t t', TabuMoved σ t t' →
      ResMoved σ (learn X.values { a with tabu := t }) (learn' X'.values { a with tabu := t' })) :
    (∀ e, fromPandasWith learn X a = .error e → fromPandasWith learn' X' a = .error e) ∧
    ∀ g, fromPandasWith learn X a = .ok g →
      ∃ g', fromPandasWith learn' X' a = .ok g' ∧ g'.nodes.Perm g.nodes ∧ g'.edges.Perm g.edges := by
  have hperm := hc.perm
  have hnd' : X'.cols.Nodup := hperm.nodup_iff.2 hnd
  have hnum : (∀ b ∈ X'.numeric, b = true) ↔ ∀ b ∈ X.numeric, b = true := by
    simp only [hn.perm.mem_iff]
  have hknown : TabuKnown X'.cols a.tabu ↔ TabuKnown X.cols a.tabu := by
    unfold TabuKnown
    simp only [hperm.mem_iff]
  obtain ⟨f1, f2, f3⟩ := fromPandasWith_ok hl hnd a
  obtain ⟨f1', f2', f3'⟩ := fromPandasWith_ok hl' hnd' a
  by_cases k1 : ∀ b ∈ X.numeric, b = true
  · by_cases k2 : TabuKnown X.cols a.tabu
    · obtain ⟨t, ht, r1, r2⟩ := f3 k1 k2
      obtain ⟨t', ht', r1', r2'⟩ := f3' (hnum.2 k1) (hknown.2 k2)
      have hcol : ∀ i : Fin X.cols.length, X'.cols[(i : ℕ)]? = some X.cols[σ i] := by
        intro i
        rw [hc.entry i]
        simp
      have hcol2 : ∀ i : Fin X.cols.length, X.cols[(σ i : ℕ)]? = some X.cols[σ i] := by
        intro i
        simp
      have hT : TabuMoved σ t t' := by
        intro i j
        rw [permitted_named hnd' ht' (hcol i) (hcol j), permitted_named hnd ht (hcol2 i) (hcol2 j)]
      have hres := hlearn t t' hT
      cases e1 : learn X.values { a with tabu := t } with
      | error e =>
        rw [r1 e e1]
        cases e2 : learn' X'.values { a with tabu := t' } with
        | error e' =>
          rw [e1, e2] at hres
          rw [r1' e' e2]
          cases hres
          exact ⟨fun e h => h, fun g h => by cases h⟩
        | ok g => rw [e1, e2] at hres; exact hres.elim
      | ok g =>
        cases e2 : learn' X'.values { a with tabu := t' } with
        | error e' => rw [e1, e2] at hres; exact hres.elim
        | ok g' =>
          rw [e1, e2] at hres
          obtain ⟨G, hG, hGn, hGe⟩ := r2 g e1
          obtain ⟨G', hG', hGn', hGe'⟩ := r2' g' e2
          rw [hG]
          refine ⟨fun e h => by (cases h), fun g0 h => ?_⟩
          cases h
          refine ⟨G', hG', by rw [hGn, hGn']; exact hperm, ?_⟩
          have hpair : ∀ {cols : List C}, cols.Nodup → ∀ (e1 e2 : Edge ℕ K) (e : Edge C K),
              EdgeNamed cols e1 e → EdgeNamed cols e2 e → (e1.src, e1.dst) = (e2.src, e2.dst) := by
            intro cols hnd e1 e2 e h1 h2
            rw [getElem?_nodup hnd h1.1 h2.1, getElem?_nodup hnd h1.2.1 h2.2.1]
          have n1 := forall₂_nodup hGe (hpair hnd) (hl.pairs _ _ _ e1)
          have n2 := forall₂_nodup hGe' (hpair hnd') (hl'.pairs _ _ _ e2)
          rw [List.perm_ext_iff_of_nodup n2 n1]
          intro e
          have hlt := hl.lt _ _ _ e1
          have hlt' := hl'.lt _ _ _ e2
          have hlen : X'.values.cols = X.cols.length := hperm.length_eq
          constructor
          · intro he
            obtain ⟨x, hx, q1, q2, q3, q4⟩ := forall₂_mem_right hGe' he
            obtain ⟨b1, b2⟩ := hlt' x hx
            rw [hlen] at b1 b2
            have hm := (hres ⟨x.src, b1⟩ ⟨x.dst, b2⟩ x.weight x.origin).1 hx
            obtain ⟨y, hy, p1, p2, p3, p4⟩ := forall₂_mem_left hGe hm
            simp only at p1 p2 p3 p4
            have s1 := hcol ⟨x.src, b1⟩
            have s2 := hcol ⟨x.dst, b2⟩
            simp only at s1 s2
            rw [hcol2] at p1 p2
            rw [q1] at s1
            rw [q2] at s2
            have : e = y := by
              cases e; cases y
              simp only [Edge.mk.injEq] at *
              exact ⟨(Option.some.inj s1).trans (Option.some.inj p1),
                (Option.some.inj s2).trans (Option.some.inj p2), q3.trans p3.symm, q4.trans p4.symm⟩
            rw [this]
            exact hy
          · intro he
            obtain ⟨x, hx, q1, q2, q3, q4⟩ := forall₂_mem_right hGe he
            obtain ⟨b1, b2⟩ := hlt x hx
            change x.src < X.cols.length at b1
            change x.dst < X.cols.length at b2
            have hm := (hres (σ.symm ⟨x.src, b1⟩) (σ.symm ⟨x.dst, b2⟩) x.weight x.origin).2
              (by simpa using hx)
            obtain ⟨y, hy, p1, p2, p3, p4⟩ := forall₂_mem_left hGe' hm
            simp only at p1 p2 p3 p4
            rw [hcol] at p1 p2
            have : e = y := by
              cases e; cases y
              simp only [Edge.mk.injEq] at *
              rw [← hcol2] at p1 p2
              simp only [Equiv.apply_symm_apply] at p1 p2
              rw [q1] at p1
              rw [q2] at p2
              exact ⟨Option.some.inj p1, Option.some.inj p2, q3.trans p3.symm, q4.trans p4.symm⟩
            rw [this]
            exact hy
    · rw [f2 k1 k2, f2' (hnum.2 k1) (fun h => k2 (hknown.1 h))]
      exact ⟨fun e h => h, fun g h => by cases h⟩
  · rw [f1 k1, f1' (fun h => k1 (hnum.1 h))]
    exact ⟨fun e h => h, fun g h => by cases h⟩

end

section
variable {C : Type} [DecidableEq C] {minimize : Minimizer ℝ}

theorem SameFrame.moved {X X' : DataFrame C ℝ} (h : SameFrame X X') :
    ∃ (τ : Equiv.Perm (Fin X.rows)) (σ : Equiv.Perm (Fin X.cols.length)),
      Reordered σ X.cols X'.cols ∧ Reordered σ X.numeric X'.numeric ∧
      Data.Moved τ σ X.values X'.values := by
  obtain ⟨hr, τ, σ, h1, h2, h3⟩ := h
  exact ⟨τ, σ, h1, h2, ⟨rfl, hr, rfl, h1.perm.length_eq, h3⟩⟩

/-- **C109** for `from_pandas`: with an optimiser that treats all coordinates alike, reordering the columns
and rows of the data frame does not change the learned graph, nor whether learning fails. -/
theorem fromPandas_order (hm : OrderBlind minimize) {X X' : DataFrame C ℝ} (hX : SameFrame X X')
    (hnd : X.cols.Nodup) (a : Params ℝ C) (fuel : ℕ) :
    (∀ e, fromPandas (problem X.values) minimize fuel X a = .error e →
      fromPandas (problem X'.values) minimize fuel X' a = .error e) ∧
    ∀ g, fromPandas (problem X.values) minimize fuel X a = .ok g →
      ∃ g', fromPandas (problem X'.values) minimize fuel X' a = .ok g' ∧
        g'.nodes.Perm g.nodes ∧ g'.edges.Perm g.edges := by
  obtain ⟨τ, σ, h1, h2, h3⟩ := hX.moved
  exact fromPandasWith_reordered (τ := τ) (fromNumpy_learner _ _ _) (fromNumpy_learner _ _ _) hnd a h1 h2
    fun t t' ht => fromNumpy_moved (a := { a with tabu := t }) (a' := { a with tabu := t' }) hm h3
      (problem_moved h3) ht rfl rfl rfl fuel

/-- **C109** for `from_pandas_lasso`. -/
theorem fromPandasLasso_order (hm : OrderBlind minimize) {X X' : DataFrame C ℝ} (hX : SameFrame X X')
    (hnd : X.cols.Nodup) (beta : ℝ) (a : Params ℝ C) (fuel : ℕ) :
    (∀ e, fromPandasLasso (problemLasso beta X.values) minimize fuel X a = .error e →
      fromPandasLasso (problemLasso beta X'.values) minimize fuel X' a = .error e) ∧
    ∀ g, fromPandasLasso (problemLasso beta X.values) minimize fuel X a = .ok g →
      ∃ g', fromPandasLasso (problemLasso beta X'.values) minimize fuel X' a = .ok g' ∧
        g'.nodes.Perm g.nodes ∧ g'.edges.Perm g.edges := by
  obtain ⟨τ, σ, h1, h2, h3⟩ := hX.moved
  exact fromPandasWith_reordered (τ := τ) (fromNumpyLasso_learner _ _ _) (fromNumpyLasso_learner _ _ _)
    hnd a h1 h2 fun t t' ht => fromNumpyLasso_moved (a := { a with tabu := t })
      (a' := { a with tabu := t' }) hm h3 (problemLasso_moved h3 beta) ht rfl rfl rfl fuel

end

end Verif.Notears
