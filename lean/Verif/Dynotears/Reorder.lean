import Verif.Dynotears.Moments

/-!
# Dynamic structure learning does not depend on the order of the columns (C115)

In exact arithmetic: the learning problem for reordered columns is the reordered problem, so that an
optimiser that treats all coordinates alike leads to the same graph.
-/

namespace Verif.Dynotears

open Verif.Notears Verif.Str Matrix Finset

/-! ### Vectors made of blocks -/

/-- Every block of a vector of `m` blocks reordered. -/
def blockPerm (m : ℕ) {n : ℕ} (π : Equiv.Perm (Fin n)) : Equiv.Perm (Fin (m * n)) :=
  finProdFinEquiv.symm.trans ((Equiv.prodCongr (Equiv.refl (Fin m)) π).trans finProdFinEquiv)

theorem block_lt {m n : ℕ} (b : Fin m) (k : Fin n) : (b : ℕ) * n + k < m * n := by
  have h1 := Nat.mul_le_mul_right n (Nat.succ_le_of_lt b.2)
  rw [Nat.succ_mul] at h1
  have := k.2
  omega

theorem blockPerm_apply {m n : ℕ} (π : Equiv.Perm (Fin n)) (b : Fin m) (k : Fin n) :
    (blockPerm m π ⟨b * n + k, block_lt b k⟩ : ℕ) = b * n + π k := by
  have h : (⟨b * n + k, block_lt b k⟩ : Fin (m * n)) = finProdFinEquiv (b, k) := by
    apply Fin.ext
    rw [finProdFinEquiv_apply_val]
    simp only
    ring
  rw [h]
  simp only [blockPerm, Equiv.trans_apply, Equiv.symm_apply_apply, Equiv.prodCongr_apply, Prod.map_apply,
    finProdFinEquiv_apply_val, Equiv.refl_apply]
  ring

theorem exists_block {m n : ℕ} (x : Fin (m * n)) : ∃ (b : Fin m) (k : Fin n), x = ⟨b * n + k, block_lt b k⟩ := by
  refine ⟨(finProdFinEquiv.symm x).1, (finProdFinEquiv.symm x).2, ?_⟩
  conv_lhs => rw [← finProdFinEquiv.apply_symm_apply x]
  apply Fin.ext
  rw [finProdFinEquiv_apply_val]
  simp only
  ring

theorem reordered_blocks {α : Type} {m n : ℕ} {π : Equiv.Perm (Fin n)} {w w' : List α} :
    Reordered (blockPerm m π) w w' ↔ w.length = m * n ∧ w'.length = m * n ∧
      ∀ (b : Fin m) (k : Fin n), w'[(b : ℕ) * n + k]? = w[(b : ℕ) * n + π k]? := by
  constructor
  · intro h
    refine ⟨h.length, h.length', fun b k => ?_⟩
    have := h.entry ⟨b * n + k, block_lt b k⟩
    rwa [blockPerm_apply] at this
  · rintro ⟨h1, h2, h3⟩
    refine ⟨h1, h2, fun x => ?_⟩
    obtain ⟨b, k, rfl⟩ := exists_block x
    rw [blockPerm_apply]
    exact h3 b k

theorem blocks_take {α : Type} {m m' n : ℕ} {π : Equiv.Perm (Fin n)} {w w' : List α}
    (h : Reordered (blockPerm m π) w w') (hm : m' ≤ m) :
    Reordered (blockPerm m' π) (w.take (m' * n)) (w'.take (m' * n)) := by
  obtain ⟨h1, h2, h3⟩ := reordered_blocks.1 h
  have hle := Nat.mul_le_mul_right n hm
  refine reordered_blocks.2 ⟨by rw [List.length_take]; omega, by rw [List.length_take]; omega, fun b k => ?_⟩
  rw [List.getElem?_take_of_lt (block_lt b k), List.getElem?_take_of_lt (block_lt b (π k))]
  exact h3 ⟨b, by omega⟩ k

theorem blocks_drop {α : Type} {m m' m'' n : ℕ} {π : Equiv.Perm (Fin n)} {w w' : List α}
    (h : Reordered (blockPerm m π) w w') (hm : m = m' + m'') :
    Reordered (blockPerm m'' π) (w.drop (m' * n)) (w'.drop (m' * n)) := by
  obtain ⟨h1, h2, h3⟩ := reordered_blocks.1 h
  have hle : m * n = m' * n + m'' * n := by rw [hm, Nat.add_mul]
  refine reordered_blocks.2 ⟨by rw [List.length_drop]; omega, by rw [List.length_drop]; omega, fun b k => ?_⟩
  rw [List.getElem?_drop, List.getElem?_drop]
  have := h3 ⟨m' + b, by omega⟩ k
  simp only [Nat.add_mul] at this
  rw [← Nat.add_assoc, ← Nat.add_assoc]
  exact this

/-- The order of the coordinates when the variables are reordered. -/
def dynPerm (p : ℕ) {d : ℕ} (σ : Equiv.Perm (Fin d)) : Equiv.Perm (Fin (2 * (p + 1) * (d * d))) :=
  blockPerm (2 * (p + 1)) (cellPerm σ)

theorem dynPerm_iff {α : Type} {p d : ℕ} {σ : Equiv.Perm (Fin d)} {w w' : List α} :
    Reordered (dynPerm p σ) w w' ↔ w.length = 2 * (p + 1) * (d * d) ∧ w'.length = 2 * (p + 1) * (d * d) ∧
      ∀ b < 2 * (p + 1), ∀ i j : Fin d,
        w'[b * d ^ 2 + i * d + j]? = w[b * d ^ 2 + σ i * d + σ j]? := by
  rw [dynPerm, reordered_blocks]
  constructor
  · rintro ⟨h1, h2, h3⟩
    refine ⟨h1, h2, fun b hb i j => ?_⟩
    have := h3 ⟨b, hb⟩ ⟨i * d + j, cell_lt i j⟩
    rw [cellPerm_cell] at this
    rw [sq, Nat.add_assoc, Nat.add_assoc]
    exact this
  · rintro ⟨h1, h2, h3⟩
    refine ⟨h1, h2, fun b k => ?_⟩
    obtain ⟨i, j, rfl⟩ := exists_cell k
    have := h3 b b.2 i j
    rw [sq, Nat.add_assoc, Nat.add_assoc] at this
    rw [cellPerm_cell]
    exact this

theorem weightOf_moved {K : Type} [Field K] {p d : ℕ} {σ : Equiv.Perm (Fin d)} {w w' : List K}
    (h : Reordered (dynPerm p σ) w w') {k : ℕ} (hk : k ≤ p) (i j : Fin d) :
    weightOf d w' k i j = weightOf d w k (σ i) (σ j) := by
  obtain ⟨-, -, h3⟩ := dynPerm_iff.1 h
  unfold weightOf
  simp only [List.getD_eq_getElem?_getD]
  rw [h3 (2 * k) (by omega), h3 (2 * k + 1) (by omega)]

/-! ### The objective -/

section
variable {n d L : ℕ} (X : Matrix (Fin n) (Fin d) ℝ) (Y : Matrix (Fin n) (Fin L) ℝ)
  (σ : Equiv.Perm (Fin d)) (ρ : Equiv.Perm (Fin L))

theorem residualDyn_moved (W : Matrix (Fin d) (Fin d) ℝ) (A : Matrix (Fin L) (Fin d) ℝ) :
    residual (X.submatrix id σ) (Y.submatrix id ρ) (W.submatrix σ σ) (A.submatrix ρ σ) =
      (residual X Y W A).submatrix id σ := by
  unfold residual
  have h := residual_reordered X (Equiv.refl (Fin n)) σ W
  change X.submatrix id σ * (1 - W.submatrix σ σ) = (X * (1 - W)).submatrix id σ at h
  rw [h, Matrix.submatrix_mul_equiv]
  rfl

theorem lossDyn_moved (W : Matrix (Fin d) (Fin d) ℝ) (A : Matrix (Fin L) (Fin d) ℝ) :
    lossDyn (X.submatrix id σ) (Y.submatrix id ρ) (W.submatrix σ σ) (A.submatrix ρ σ) = lossDyn X Y W A := by
  unfold lossDyn
  rw [residualDyn_moved]
  congr 1
  refine Finset.sum_congr rfl fun i _ => ?_
  exact Equiv.sum_comp σ fun j => (residual X Y W A i j) ^ 2

theorem objGradW_moved (rho alpha : ℝ) (W : Matrix (Fin d) (Fin d) ℝ) (A : Matrix (Fin L) (Fin d) ℝ) :
    objGradW (X.submatrix id σ) (Y.submatrix id ρ) rho alpha (W.submatrix σ σ) (A.submatrix ρ σ) =
      (objGradW X Y rho alpha W A).submatrix σ σ := by
  unfold objGradW
  have h1 : W.submatrix σ σ ⊙ W.submatrix σ σ = (W ⊙ W).submatrix σ σ := rfl
  have h2 : (X.submatrix id σ)ᵀ * (residual X Y W A).submatrix id σ =
      (Xᵀ * residual X Y W A).submatrix σ σ := rfl
  dsimp only
  rw [h1, exp_reordered, trace_reordered, residualDyn_moved, h2]
  rfl

theorem objGradA_moved (W : Matrix (Fin d) (Fin d) ℝ) (A : Matrix (Fin L) (Fin d) ℝ) :
    objGradA (X.submatrix id σ) (Y.submatrix id ρ) (W.submatrix σ σ) (A.submatrix ρ σ) =
      (objGradA X Y W A).submatrix ρ σ := by
  unfold objGradA
  rw [residualDyn_moved]
  rfl

end

/-! ### Learning from arrays -/

/-- `X'` and `Y'` are the arrays `X` of present and `Y` of past values, with the variables reordered by `σ`:
in `Y` they are repeated for every lag. -/
structure PairMoved {K : Type} (p : ℕ) {d : ℕ} (σ : Equiv.Perm (Fin d)) (X Y X' Y' : Data K) : Prop where
  rows : X'.rows = X.rows
  lagRows : Y'.rows = Y.rows
  cols : X.cols = d
  cols' : X'.cols = d
  lags : Y.cols = p * d
  lags' : Y'.cols = p * d
  entry : ∀ i < X.rows, ∀ j : Fin d, X'.entry i j = X.entry i (σ j)
  lagEntry : ∀ i < X.rows, ∀ k < p, ∀ j : Fin d, Y'.entry i (k * d + j) = Y.entry i (k * d + σ j)

section
variable {p d : ℕ} {σ : Equiv.Perm (Fin d)}

theorem matW_moved {w w' : List ℝ} (h : Reordered (dynPerm p σ) w w') :
    matW d w' = (matW d w).submatrix σ σ := by
  ext i j
  rw [Matrix.submatrix_apply, matW_eq, matW_eq, weightOf_moved h (Nat.zero_le p)]

theorem matA_moved {w w' : List ℝ} (h : Reordered (dynPerm p σ) w w') :
    matA d (p * d) w' = (matA d (p * d) w).submatrix (blockPerm p σ) σ := by
  ext r j
  obtain ⟨b, i, rfl⟩ := exists_block r
  have hd : d ≠ 0 := by have := i.2; omega
  have key : ∀ i : Fin d, ((b : ℕ) * d + i) / d = b ∧ ((b : ℕ) * d + i) % d = i := by
    intro i
    rw [Nat.add_comm, Nat.add_mul_div_right _ _ (by omega), Nat.div_eq_of_lt i.2, Nat.zero_add,
      Nat.add_mul_mod_self_right, Nat.mod_eq_of_lt i.2]
    exact ⟨rfl, rfl⟩
  rw [Matrix.submatrix_apply, matA_eq hd, matA_eq hd, blockPerm_apply]
  simp only
  rw [(key i).1, (key i).2, (key (σ i)).1, (key (σ i)).2]
  exact weightOf_moved h (by omega) i j

theorem gradVec_moved {lw la : ℝ} {gw gw' : Matrix (Fin d) (Fin d) ℝ} {ga ga' : Matrix (Fin (p * d)) (Fin d) ℝ}
    (hw : gw' = gw.submatrix σ σ) (ha : ga' = ga.submatrix (blockPerm p σ) σ) :
    Reordered (dynPerm p σ) (gradVec lw la d p (flat gw) (flat ga)) (gradVec lw la d p (flat gw') (flat ga')) := by
  have l1 : ∀ M : Matrix (Fin d) (Fin d) ℝ, (flat M).length = d ^ 2 := fun M => by rw [flat_length, sq]
  have l2 : ∀ M : Matrix (Fin (p * d)) (Fin d) ℝ, (flat M).length = p * d ^ 2 := fun M => by
    rw [flat_length, sq, Nat.mul_assoc]
  have len : ∀ (M : Matrix (Fin d) (Fin d) ℝ) (M' : Matrix (Fin (p * d)) (Fin d) ℝ),
      (gradVec lw la d p (flat M) (flat M')).length = 2 * (p + 1) * (d * d) := fun M M' => by
    rw [gradVec_length (l1 M) (l2 M'), sq]
  refine dynPerm_iff.2 ⟨len _ _, len _ _, fun b hb i j => ?_⟩
  have hcell : ∀ i j : Fin d, (i : ℕ) * d + j < d ^ 2 := fun i j => cell_lt' i.2 j.2
  have hlt : ∀ i j : Fin d, b * d ^ 2 + i * d + j < 2 * (p + 1) * (d * d) := by
    intro i j
    have h1 := Nat.mul_le_mul_right (d ^ 2) (Nat.succ_le_of_lt hb)
    rw [Nat.succ_mul] at h1
    have := hcell i j
    rw [← sq]
    omega
  suffices h : (gradVec lw la d p (flat gw') (flat ga')).getD (b * d ^ 2 + i * d + j) 0 =
      (gradVec lw la d p (flat gw) (flat ga)).getD (b * d ^ 2 + σ i * d + σ j) 0 by
    rw [List.getD_eq_getElem _ _ (by rw [len]; exact hlt _ _),
      List.getD_eq_getElem _ _ (by rw [len]; exact hlt _ _)] at h
    rw [List.getElem?_eq_getElem (by rw [len]; exact hlt _ _),
      List.getElem?_eq_getElem (by rw [len]; exact hlt _ _), h]
  have hgw : ∀ M : Matrix (Fin d) (Fin d) ℝ, ∀ i j : Fin d, (flat M).getD (i * d + j) 0 = M i j :=
    fun M i j => flat_getD M i j
  have hga : ∀ (M : Matrix (Fin (p * d)) (Fin d) ℝ) (q : Fin p) (i j : Fin d),
      (flat M).getD (q * d ^ 2 + (i * d + j)) 0 = M ⟨q * d + i, block_lt q i⟩ j := by
    intro M q i j
    rw [← flat_getD M ⟨q * d + i, block_lt q i⟩ j]
    congr 1
    simp only
    ring
  have hmv : ∀ q : Fin p, ga' ⟨q * d + i, block_lt q i⟩ j = ga ⟨q * d + σ i, block_lt q (σ i)⟩ (σ j) := by
    intro q
    rw [ha, Matrix.submatrix_apply]
    congr 1
    apply Fin.ext
    exact blockPerm_apply σ q i
  rcases Nat.even_or_odd' b with ⟨c, hc | hc⟩
  · cases c with
    | zero =>
      subst hc
      simp only [Nat.mul_zero, Nat.zero_mul, Nat.zero_add]
      rw [gradVec_zero (l1 _) (hcell i j), gradVec_zero (l1 _) (hcell _ _), hgw, hgw, hw, Matrix.submatrix_apply]
    | succ q =>
      have hq : q < p := by omega
      subst hc
      rw [Nat.add_assoc, Nat.add_assoc, (gradVec_succ (l1 _) (l2 _) hq (hcell i j)).1,
        (gradVec_succ (l1 _) (l2 _) hq (hcell _ _)).1]
      have h1 := hga ga' ⟨q, hq⟩ i j
      have h2 := hga ga ⟨q, hq⟩ (σ i) (σ j)
      simp only at h1 h2
      rw [h1, h2, hmv ⟨q, hq⟩]
  · cases c with
    | zero =>
      subst hc
      simp only [Nat.mul_zero, Nat.zero_add, Nat.one_mul]
      rw [Nat.add_assoc, Nat.add_assoc, gradVec_one (l1 _) (hcell i j), gradVec_one (l1 _) (hcell _ _), hgw, hgw,
        hw, Matrix.submatrix_apply]
    | succ q =>
      have hq : q < p := by omega
      subst hc
      rw [Nat.add_assoc, Nat.add_assoc, (gradVec_succ (l1 _) (l2 _) hq (hcell i j)).2,
        (gradVec_succ (l1 _) (l2 _) hq (hcell _ _)).2]
      have h1 := hga ga' ⟨q, hq⟩ i j
      have h2 := hga ga ⟨q, hq⟩ (σ i) (σ j)
      simp only at h1 h2
      rw [h1, h2, hmv ⟨q, hq⟩]

theorem problem_func_eq (lambdaW lambdaA : ℝ) (r s d L : ℕ) (e f : ℕ → ℕ → Option ℝ) (rho : ℝ)
    (alpha : WithTop ℝ) (vec : List ℝ) :
    (problem lambdaW lambdaA ⟨r, d, e⟩ ⟨s, L, f⟩).func rho alpha vec = alpha.map fun a =>
      lossDyn (numbers r d e) (numbers r L f) (matW d vec) (matA d L vec) +
        0.5 * rho * expScore (matW d vec) * expScore (matW d vec) + a * expScore (matW d vec) +
        (lambdaW * (vec.take (2 * d ^ 2)).sum + lambdaA * (vec.drop (2 * d ^ 2)).sum) := rfl

theorem problem_grad_eq' (lambdaW lambdaA : ℝ) (r s d L : ℕ) (e f : ℕ → ℕ → Option ℝ) (rho : ℝ)
    (alpha : WithTop ℝ) (vec : List ℝ) :
    (problem lambdaW lambdaA ⟨r, d, e⟩ ⟨s, L, f⟩).grad rho alpha vec = gradVec lambdaW lambdaA d (L / d)
      (flat (objGradW (numbers r d e) (numbers r L f) rho (alpha.untopD 0) (matW d vec) (matA d L vec)))
      (flat (objGradA (numbers r d e) (numbers r L f) (matW d vec) (matA d L vec))) := rfl

/-- The problem for the reordered data is the reordered problem. -/
theorem problemDyn_moved {X Y X' Y' : Data ℝ} (h : PairMoved p σ X Y X' Y') (hd : d ≠ 0)
    (lambdaW lambdaA : ℝ) :
    Problem.Moved (dynPerm p σ) (problem lambdaW lambdaA X Y) (problem lambdaW lambdaA X' Y') := by
  obtain ⟨r, d1, e⟩ := X
  obtain ⟨s, L, f⟩ := Y
  obtain ⟨r', d1', e'⟩ := X'
  obtain ⟨s', L', f'⟩ := Y'
  obtain ⟨h1, h2, h3, h4, h5, h6, h7, h8⟩ := h
  simp only at h1 h2 h3 h4 h5 h6 h7 h8
  subst h1 h2 h3 h4 h5 h6
  intro u u' hu
  have hX : numbers r' d1' e' = (numbers r' d1' e).submatrix id σ := by
    ext i j
    simp only [numbers, Matrix.submatrix_apply, id, h7 i i.2]
  have hY : numbers r' (p * d1') f' = (numbers r' (p * d1') f).submatrix id (blockPerm p σ) := by
    ext i r
    obtain ⟨b, k, rfl⟩ := exists_block r
    rw [Matrix.submatrix_apply]
    simp only [id, numbers]
    rw [blockPerm_apply, h8 i i.2 b b.2 k]
  have hdp : p * d1' / d1' = p := Nat.mul_div_cancel _ (by omega)
  have hT := (blocks_take (m' := 2) hu (by omega)).perm.sum_eq
  have hD := (blocks_drop (m' := 2) (m'' := 2 * p) hu (by ring)).perm.sum_eq
  rw [← sq] at hT hD
  refine ⟨?_, fun rho alpha => ⟨?_, ?_⟩⟩
  · simp only [problem]
    rw [matW_moved hu, expScore_reordered]
  · rw [problem_func_eq, problem_func_eq, matW_moved hu, matA_moved hu, hX, hY, expScore_reordered, hT, hD,
      lossDyn_moved]
  · rw [problem_grad_eq', problem_grad_eq', hdp]
    apply gradVec_moved
    · rw [matW_moved hu, matA_moved hu, hX, hY]
      exact objGradW_moved _ _ _ _ _ _ _ _
    · rw [matW_moved hu, matA_moved hu, hX, hY]
      exact objGradA_moved _ _ _ _ _ _

/-- The excluded edges of `t'` are those of `t`, in the other order of the columns. -/
def DynTabuMoved (p : ℕ) (σ : Equiv.Perm (Fin d)) (t t' : Tabu ℕ) : Prop :=
  ∀ k ≤ p, ∀ i j : Fin d, Permitted t' k i j ↔ Permitted t k (σ i) (σ j)

theorem bound_free {K : Type} [Field K] [LinearOrder K] {t : Tabu ℕ} {k i j : ℕ} (h : Permitted t k i j) :
    (if k = 0 then boundW t (i, j) else boundA t k (i, j) : Bound K) = (some 0, none) := by
  obtain ⟨h0, h1, h2, h3⟩ := h
  have k2 : ¬ (t.parents.any fun tp => decide (i ∈ tp)) = true := by
    cases hp : t.parents with
    | none => simp
    | some tp => simpa using h2 tp hp
  have k3 : ¬ (t.children.any fun tc => decide (j ∈ tc)) = true := by
    cases hp : t.children with
    | none => simp
    | some tp => simpa using h3 tp hp
  have k1 : ¬ (t.edges.any fun te => decide ((k, i, j) ∈ te)) = true := by
    cases hp : t.edges with
    | none => simp
    | some tp => simpa using h1 tp hp
  split
  · rename_i hk
    subst hk
    unfold boundW
    rw [if_neg (h0 rfl), if_neg k1, if_neg k2, if_neg k3]
  · unfold boundA
    rw [if_neg k1, if_neg k2, if_neg k3]

theorem bound_zero {K : Type} [Field K] [LinearOrder K] {t : Tabu ℕ} {k i j : ℕ} (h : ¬ Permitted t k i j) :
    (if k = 0 then boundW t (i, j) else boundA t k (i, j) : Bound K) = (some 0, some 0) := by
  split
  · rename_i hk
    subst hk
    exact boundW_zero h
  · rename_i hk
    exact boundA_zero hk h

theorem bounds_moved {K : Type} [Field K] [LinearOrder K] {t t' : Tabu ℕ} (h : DynTabuMoved p σ t t') :
    Reordered (dynPerm p σ) (bounds t d p : List (Bound K)) (bounds t' d p) := by
  refine dynPerm_iff.2 ⟨by rw [bounds_length, sq], by rw [bounds_length, sq], fun b hb i j => ?_⟩
  have hs : b % 2 < 2 := Nat.mod_lt _ (by omega)
  have hb' : b = 2 * (b / 2) + b % 2 := (Nat.div_add_mod b 2).symm
  rw [hb', bounds_get _ hs (by omega) i.2 j.2, bounds_get _ hs (by omega) (σ i).2 (σ j).2]
  congr 1
  by_cases hp : Permitted t' (b / 2) i j
  · rw [bound_free hp, bound_free ((h _ (by omega) i j).1 hp)]
  · rw [bound_zero hp, bound_zero fun hq => hp ((h _ (by omega) i j).2 hq)]

variable {K : Type} [Field K] [LinearOrder K] {P P' : Problem K} {minimize : Minimizer K}

/-- If learning from arrays succeeds, so does learning from the reordered arrays, and the weights are
reordered. -/
theorem fromNumpyDynamic_moved (hm : OrderBlind minimize) {X Y X' Y' : Data K}
    (hX : PairMoved p σ X Y X' Y') (hP : Problem.Moved (dynPerm p σ) P P') {a a' : Params K ℕ}
    (ht : DynTabuMoved p σ a.tabu a'.tabu) (h1 : a'.maxIter = a.maxIter) (h2 : a'.hTol = a.hTol)
    (h3 : a'.wThreshold = a.wThreshold) {fuel : ℕ} {g : Graph Str K}
    (hg : fromNumpyDynamic P minimize fuel X Y a = .ok g) :
    ∃ g' w w', fromNumpyDynamic P' minimize fuel X' Y' a' = .ok g' ∧
      IsDynGraph ((List.range d).map natStr) p w a.wThreshold "unknown" g ∧
      IsDynGraph ((List.range d).map natStr) p w' a.wThreshold "unknown" g' ∧
      ∀ k ≤ p, ∀ i j : Fin d, w' k i j = w k (σ i) (σ j) := by
  obtain ⟨hs, s, hl, rfl⟩ := fromNumpyDynamic_ok.1 hg
  have hd : d ≠ 0 := by rw [← hX.cols]; exact hs.2.1
  have hdp : p * d / d = p := Nat.mul_div_cancel _ (by omega)
  rw [hX.cols, hX.lags, hdp] at hl
  have hmv := learnLoop_moved hm hP (bounds_moved (K := K) ht) (by rw [sq] : 2 * (p + 1) * d ^ 2 = _)
    a.maxIter a.hTol fuel
  rw [hl] at hmv
  cases hl' : learnLoop P' minimize (bounds a'.tabu d p) (2 * (p + 1) * d ^ 2) a.maxIter a.hTol fuel with
  | none => rw [hl'] at hmv; cases hmv
  | some s' =>
    rw [hl'] at hmv
    cases hmv with
    | some hmv =>
      have hs' : Shapes X' Y' := by
        obtain ⟨k1, k2, k3, k4, k5⟩ := hs
        refine ⟨by rw [hX.rows]; exact k1, by rw [hX.cols']; exact hd, ?_, ?_, ?_⟩
        · rw [hX.lags', ← hX.lags]; exact k3
        · rw [hX.rows, hX.lagRows]; exact k4
        · rw [hX.cols', hX.lags']; exact Dvd.intro_left p rfl
      refine ⟨_, weightOf d s.wEst, weightOf d s'.wEst, fromNumpyDynamic_ok.2 ⟨hs', s', ?_, rfl⟩, ?_, ?_,
        fun k hk i j => weightOf_moved hmv.wEst hk i j⟩
      · rw [hX.cols', hX.lags', hdp, h1, h2]
        exact hl'
      · rw [hX.cols, hX.lags, hdp]
        exact toGraph_dyn hd _ _
      · rw [hX.cols', hX.lags', hdp, h3]
        exact toGraph_dyn hd _ _

end

/-! ### Names -/

section
variable {K : Type} [Field K] [LinearOrder K]

theorem dyn_weight {names : List Str} (hnd : names.Nodup) {p : ℕ} {w w2 : ℕ → ℕ → ℕ → K} {thr : K}
    {o : String} {g : Graph Str K} (h : IsDynGraph names p w thr o g) (h2 : IsDynGraph names p w2 thr o g)
    {k i j : ℕ} (hk : k ≤ p) (hi : i < names.length) (hj : j < names.length) (h0 : w k i j ≠ 0)
    (ht : thr ≤ |w k i j|) : w2 k i j = w k i j := by
  have hm := (h.edges ⟨lagName names[i] k, lagName names[j] 0, w k i j, o⟩).2
    ⟨k, i, j, names[i], names[j], hk, by simp, by simp, h0, ht, rfl⟩
  obtain ⟨k', i', j', u, v, -, hu, hv, -, -, he⟩ := (h2.edges _).1 hm
  obtain ⟨e1, e2, e3, -⟩ := Edge.mk.inj he
  obtain ⟨rfl, rfl⟩ := lagName_inj e1
  obtain ⟨rfl, -⟩ := lagName_inj e2
  obtain ⟨p1, p2⟩ := List.getElem?_eq_some_iff.1 hu
  obtain ⟨q1, q2⟩ := List.getElem?_eq_some_iff.1 hv
  rw [(List.Nodup.getElem_inj_iff hnd).1 p2, (List.Nodup.getElem_inj_iff hnd).1 q2] at e3
  exact e3.symm

theorem IsDynGraph.congr {names : List Str} {p : ℕ} {w w2 : ℕ → ℕ → ℕ → K} {thr : K} {o : String}
    {g : Graph Str K} (h : IsDynGraph names p w thr o g)
    (h1 : ∀ k ≤ p, ∀ i < names.length, ∀ j < names.length, w k i j ≠ 0 → thr ≤ |w k i j| → w2 k i j = w k i j)
    (h2 : ∀ k ≤ p, ∀ i < names.length, ∀ j < names.length, w2 k i j ≠ 0 → thr ≤ |w2 k i j| →
      w2 k i j = w k i j) : IsDynGraph names p w2 thr o g := by
  refine ⟨h.nodes, h.nodes_nodup, fun e => ?_, h.edges_nodup⟩
  rw [h.edges]
  constructor
  · rintro ⟨k, i, j, u, v, hk, hu, hv, h0, ht, rfl⟩
    have := h1 k hk i (List.getElem?_eq_some_iff.1 hu).1 j (List.getElem?_eq_some_iff.1 hv).1 h0 ht
    exact ⟨k, i, j, u, v, hk, hu, hv, by rwa [this], by rwa [this], by rw [this]⟩
  · rintro ⟨k, i, j, u, v, hk, hu, hv, h0, ht, rfl⟩
    have := h2 k hk i (List.getElem?_eq_some_iff.1 hu).1 j (List.getElem?_eq_some_iff.1 hv).1 h0 ht
    exact ⟨k, i, j, u, v, hk, hu, hv, by rwa [← this], by rwa [← this], by rw [this]⟩

/-- Excluded positions are the positions of excluded names. -/
theorem permitted_named {cols : List Str} (hnd : cols.Nodup) {t : Tabu Str} {t' : Tabu ℕ}
    (h : TabuNamed cols t t') (k : ℕ) {i j : ℕ} {u v : Str} (hi : cols[i]? = some u) (hj : cols[j]? = some v) :
    Permitted t' k i j ↔ Permitted t k u v := by
  have hij : i ≠ j ↔ u ≠ v := by
    constructor
    · intro h1 h2
      subst h2
      exact h1 (getElem?_nodup hnd hi hj)
    · intro h1 h2
      subst h2
      rw [hi] at hj
      exact h1 (Option.some.inj hj)
  have he : (∀ te, t'.edges = some te → (k, i, j) ∉ te) ↔ ∀ te, t.edges = some te → (k, u, v) ∉ te := by
    have h1 := h.edges
    generalize t.edges = o at h1 ⊢
    generalize t'.edges = o' at h1 ⊢
    cases h1 with
    | none => simp
    | some h1 =>
      simp only [Option.some.injEq, forall_eq']
      rw [not_iff_not]
      constructor
      · intro hm
        obtain ⟨⟨l, a, b⟩, hab, k0, k1, k2⟩ := forall₂_mem_right h1 hm
        simp only at k0 k1 k2
        rw [hi] at k1
        rw [hj] at k2
        cases k0; cases k1; cases k2
        exact hab
      · intro hm
        obtain ⟨⟨l, a, b⟩, hab, k0, k1, k2⟩ := forall₂_mem_left h1 hm
        simp only at k0 k1 k2
        rw [getElem?_nodup hnd hi k1, getElem?_nodup hnd hj k2, ← k0]
        exact hab
  have hs : ∀ {o : Option (List Str)} {o' : Option (List ℕ)} {k : ℕ} {c : Str},
      Option.Rel (List.Forall₂ fun n i => cols[i]? = some n) o o' → cols[k]? = some c →
      ((∀ te, o' = some te → k ∉ te) ↔ ∀ te, o = some te → c ∉ te) := by
    intro o o' k c h1 hk
    cases h1 with
    | none => simp
    | some h1 =>
      simp only [Option.some.injEq, forall_eq']
      rw [not_iff_not]
      constructor
      · intro hm
        obtain ⟨a, ha, k1⟩ := forall₂_mem_right h1 hm
        rw [hk] at k1
        cases k1
        exact ha
      · intro hm
        obtain ⟨a, ha, k1⟩ := forall₂_mem_left h1 hm
        rw [getElem?_nodup hnd hk k1]
        exact ha
  unfold Permitted
  rw [hij, he, hs h.parents hi, hs h.children hj]

/-- `from_pandas_dynamic` after the transformation, with reordered columns. -/
theorem fromArrays_moved {minimize : Minimizer K} (hm : OrderBlind minimize) {P : Data K → Data K → Problem K}
    {cols cols' : List Str} (hnd : cols.Nodup) {p : ℕ} {σ : Equiv.Perm (Fin cols.length)}
    (hc : Reordered σ cols cols') {X Y X' Y' : Data K} (hX : PairMoved p σ X Y X' Y')
    (hP : cols.length ≠ 0 → Problem.Moved (dynPerm p σ) (P X Y) (P X' Y')) (a : Params K Str) {fuel : ℕ}
    {g : Graph Str K} (hg : fromArrays P minimize fuel cols p X Y a = .ok g) :
    ∃ g', fromArrays P minimize fuel cols' p X' Y' a = .ok g' ∧
      g'.nodes.Perm g.nodes ∧ g'.edges.Perm g.edges := by
  have hnd' : cols'.Nodup := hc.perm.nodup_iff.2 hnd
  have hlen : cols'.length = cols.length := hc.length'
  have hmem : ∀ c, c ∈ cols' ↔ c ∈ cols := fun c => hc.perm.mem_iff
  have hA := fromArrays_correct P minimize fuel hnd (p := p) hX.cols hX.lags a
  have hB := fromArrays_correct P minimize fuel hnd' (p := p) (X := X') (Xlags := Y')
    (by rw [hX.cols', hlen]) (by rw [hX.lags', hlen]) a
  have hk : TabuKnown cols a.tabu := by
    by_contra hk
    rw [hA.1 hk] at hg
    cases hg
  have hk' : TabuKnown cols' a.tabu := by
    obtain ⟨k1, k2, k3⟩ := hk
    refine ⟨fun te h e he => ?_, fun tp h n hn => ?_, fun tc h n hn => ?_⟩
    · rw [hmem, hmem]; exact k1 te h e he
    · rw [hmem]; exact k2 tp h n hn
    · rw [hmem]; exact k3 tc h n hn
  obtain ⟨t, ht, hAe, hAo⟩ := hA.2 hk
  obtain ⟨t', ht', -, hBo⟩ := hB.2 hk'
  cases hr : fromNumpyDynamic (P X Y) minimize fuel X Y { a with tabu := t } with
  | error e =>
    rw [hAe e hr] at hg
    cases hg
  | ok g0 =>
    obtain ⟨g1, w, hw1, hw2, hw3⟩ := hAo g0 hr
    rw [hg] at hw2
    cases hw2
    have hd : cols.length ≠ 0 := by
      have := (fromNumpyDynamic_ok.1 hr).1.2.1
      rwa [hX.cols] at this
    have htm : DynTabuMoved p σ t t' := by
      intro k _ i j
      have hi := hc.entry i
      have hj := hc.entry j
      have e1 : cols[(σ i : ℕ)]? = some cols[(σ i : ℕ)] := List.getElem?_eq_getElem _
      have e2 : cols[(σ j : ℕ)]? = some cols[(σ j : ℕ)] := List.getElem?_eq_getElem _
      rw [permitted_named hnd' ht' k (hi.trans e1) (hj.trans e2), permitted_named hnd ht k e1 e2]
    obtain ⟨g0', v, v', hr', hv, hv', hvv⟩ := fromNumpyDynamic_moved hm hX (hP hd) (a := { a with tabu := t })
      (a' := { a with tabu := t' }) htm rfl rfl rfl hr
    obtain ⟨g1', w', hw1', hw2', hw3'⟩ := hBo g0' hr'
    refine ⟨g1', hw2', ?_⟩
    have hrn : ((List.range cols.length).map natStr).Nodup :=
      List.nodup_range.map fun a b h => natStr_inj h
    simp only at hv hv'
    rw [hlen] at hw1'
    have G := hw3.congr (w2 := v)
      (fun k hk i hi j hj h0 h1 => dyn_weight hrn hw1 hv hk (by simpa using hi) (by simpa using hj) h0 h1)
      (fun k hk i hi j hj h0 h1 => (dyn_weight hrn hv hw1 hk (by simpa using hi) (by simpa using hj) h0 h1).symm)
    have G' := hw3'.congr (w2 := v')
      (fun k hk i hi j hj h0 h1 => dyn_weight hrn hw1' hv' hk (by simpa [hlen] using hi) (by simpa [hlen] using hj) h0 h1)
      (fun k hk i hi j hj h0 h1 => (dyn_weight hrn hv' hw1' hk (by simpa [hlen] using hi)
        (by simpa [hlen] using hj) h0 h1).symm)
    refine ⟨(List.perm_ext_iff_of_nodup G'.nodes_nodup G.nodes_nodup).2 fun n => ?_,
      (List.perm_ext_iff_of_nodup G'.edges_nodup.of_map G.edges_nodup.of_map).2 fun e => ?_⟩
    · rw [G'.nodes, G.nodes]
      simp only [hmem]
    · rw [G'.edges, G.edges]
      constructor
      · rintro ⟨k, i, j, u, z, hk, hu, hz, h0, h1, rfl⟩
        have hi : i < cols.length := by rw [← hlen]; exact (List.getElem?_eq_some_iff.1 hu).1
        have hj : j < cols.length := by rw [← hlen]; exact (List.getElem?_eq_some_iff.1 hz).1
        have e := hvv k hk ⟨i, hi⟩ ⟨j, hj⟩
        simp only at e
        have c1 := hc.entry ⟨i, hi⟩
        have c2 := hc.entry ⟨j, hj⟩
        simp only at c1 c2
        refine ⟨k, σ ⟨i, hi⟩, σ ⟨j, hj⟩, u, z, hk, ?_, ?_, ?_, ?_, ?_⟩
        · rw [← c1]; exact hu
        · rw [← c2]; exact hz
        · rw [← e]; exact h0
        · rw [← e]; exact h1
        · rw [← e]
      · rintro ⟨k, i, j, u, z, hk, hu, hz, h0, h1, rfl⟩
        have hi : i < cols.length := (List.getElem?_eq_some_iff.1 hu).1
        have hj : j < cols.length := (List.getElem?_eq_some_iff.1 hz).1
        have e := hvv k hk (σ.symm ⟨i, hi⟩) (σ.symm ⟨j, hj⟩)
        simp only [Equiv.apply_symm_apply] at e
        have c1 := hc.entry (σ.symm ⟨i, hi⟩)
        have c2 := hc.entry (σ.symm ⟨j, hj⟩)
        simp only [Equiv.apply_symm_apply] at c1 c2
        refine ⟨k, σ.symm ⟨i, hi⟩, σ.symm ⟨j, hj⟩, u, z, hk, ?_, ?_, ?_, ?_, ?_⟩
        · rw [c1]; exact hu
        · rw [c2]; exact hz
        · rw [e]; exact h0
        · rw [e]; exact h1
        · rw [e]

end

/-! ### Data frames -/

section
variable {T : Type}

/-- `t'` is the data frame `t` with its columns in another order. -/
structure SameSeries {n : ℕ} (σ : Equiv.Perm (Fin n)) (t t' : Transform.Frame Str T ℝ) : Prop where
  cols : Reordered σ t.cols t'.cols
  dtypes : Reordered σ t.dtypes t'.dtypes
  indexInt : t'.indexInt = t.indexInt
  index : t'.index = t.index
  rows : t'.rows = t.rows

theorem reordered_unique {α : Type} {n : ℕ} {π : Equiv.Perm (Fin n)} {w w1 w2 : List α}
    (h1 : Reordered π w w1) (h2 : Reordered π w w2) : w1 = w2 := by
  refine List.ext_getElem (by rw [h1.length', h2.length']) fun k hk hk' => ?_
  have e1 := h1.entry ⟨k, by rw [← h1.length']; exact hk⟩
  have e2 := h2.entry ⟨k, by rw [← h1.length']; exact hk⟩
  simp only at e1 e2
  rw [← e2, List.getElem?_eq_getElem hk, List.getElem?_eq_getElem hk'] at e1
  exact Option.some.inj e1

theorem cut_map {α β : Type} (f : α → β) (index : List ℤ) (values : List α) :
    Transform.cut index (values.map f) = (Transform.cut index values).map (·.map f) := by
  unfold Transform.cut
  simp only [List.map_map]
  refine List.map_congr_left fun q _ => ?_
  simp [Transform.slice, List.map_drop, List.map_take]

/-- The rows of one frame as functions of the column. -/
noncomputable def rawRows (p : ℕ) (t : Transform.Frame Str T ℝ) : List ((Str → ℝ) × List (Str → ℝ)) :=
  (Transform.cut t.index t.rows).flatMap fun piece => (List.range (piece.length - p)).map fun j =>
    (piece.getD (j + p) 0, (List.range p).map fun k => piece.getD (j + p - (k + 1)) 0)

theorem frameRows_raw (p : ℕ) (cols : List Str) (t : Transform.Frame Str T ℝ) : frameRows p cols t =
    (rawRows p t).map fun q => (cols.map q.1, q.2.flatMap fun r => cols.map r) := by
  unfold frameRows rawRows
  rw [cut_map, List.flatMap_map, List.map_flatMap]
  rw [List.flatMap_def, List.flatMap_def]
  congr 1
  refine List.map_congr_left fun piece _ => ?_
  unfold Transform.windows
  rw [List.map_map, List.length_map]
  refine List.map_congr_left fun j hj => ?_
  rw [List.mem_range] at hj
  have key : ∀ i < piece.length, (piece.map fun r => cols.map r).getD i [] = cols.map (piece.getD i 0) := by
    intro i hi
    rw [List.getD_eq_getElem _ _ (by simpa using hi), List.getD_eq_getElem _ _ hi, List.getElem_map]
  simp only [Function.comp]
  rw [key _ (by omega), List.flatMap_map, List.flatMap_def, List.flatMap_def]
  congr 2
  refine List.map_congr_left fun k hk => ?_
  rw [List.mem_range] at hk
  exact key _ (by omega)

theorem flatMap_block {α β : Type} (f : α → List β) {m : ℕ} (hf : ∀ a, (f a).length = m) (l : List α) (k j : ℕ)
    (hj : j < m) : (l.flatMap f)[k * m + j]? = (l[k]?).bind fun a => (f a)[j]? := by
  induction l generalizing k with
  | nil => simp
  | cons a l ih =>
    rw [List.flatMap_cons]
    cases k with
    | zero => rw [Nat.zero_mul, Nat.zero_add, List.getElem?_append_left (by rw [hf]; exact hj)]; simp
    | succ k =>
      rw [List.getElem?_append_right (by rw [hf, Nat.succ_mul]; omega), hf,
        show (k + 1) * m + j - m = k * m + j by rw [Nat.succ_mul]; omega, ih]
      simp

/-- The arrays made from the same rows with the columns in another order. -/
theorem toData_moved {cols cols' : List Str} {p : ℕ} {σ : Equiv.Perm (Fin cols.length)}
    (hc : Reordered σ cols cols') {R : List ((Str → ℝ) × List (Str → ℝ))} {X Y X' Y' : List (List ℝ)}
    (hl : X.length = Y.length) (hl' : X'.length = Y'.length)
    (h : X.zip Y = R.map fun q => (cols.map q.1, q.2.flatMap fun r => cols.map r))
    (h' : X'.zip Y' = R.map fun q => (cols'.map q.1, q.2.flatMap fun r => cols'.map r)) :
    PairMoved p σ (toData cols.length X) (toData (p * cols.length) Y) (toData cols.length X')
      (toData (p * cols.length) Y') := by
  have e1 : X = R.map fun q => cols.map q.1 := by
    rw [← List.map_fst_zip hl.le, h, List.map_map]; rfl
  have e2 : Y = R.map fun q => q.2.flatMap fun r => cols.map r := by
    rw [← List.map_snd_zip hl.ge, h, List.map_map]; rfl
  have e1' : X' = R.map fun q => cols'.map q.1 := by
    rw [← List.map_fst_zip hl'.le, h', List.map_map]; rfl
  have e2' : Y' = R.map fun q => q.2.flatMap fun r => cols'.map r := by
    rw [← List.map_snd_zip hl'.ge, h', List.map_map]; rfl
  subst e1 e2 e1' e2'
  refine ⟨by simp [toData], by simp [toData], rfl, rfl, rfl, rfl, fun i _ j => ?_, fun i _ k _ j => ?_⟩
  · simp only [toData, List.getElem?_map]
    cases R[i]? with
    | none => rfl
    | some q =>
      simp only [Option.map_some, Option.bind_some, List.getElem?_map, hc.entry j]
  · simp only [toData, List.getElem?_map]
    cases R[i]? with
    | none => rfl
    | some q =>
      simp only [Option.map_some, Option.bind_some]
      rw [flatMap_block _ (m := cols.length) (by simp [hc.length']) _ _ _ j.2,
        flatMap_block _ (m := cols.length) (by simp) _ _ _ (σ j).2]
      simp only [List.getElem?_map, hc.entry j]

variable [DecidableEq T]

/-- **C115** for `from_pandas_dynamic`: with an optimiser that treats all coordinates alike, reordering the
columns, in the same way in all data frames, does not change the learned graph. -/
theorem frames_columns {minimize : Minimizer ℝ} (hm : OrderBlind minimize) (fuel : ℕ) (lambdaW lambdaA : ℝ)
    (numeric : T → Bool) {n : ℕ} {σ : Equiv.Perm (Fin n)} {fs fs' : List (Transform.Frame Str T ℝ)}
    (h : List.Forall₂ (SameSeries σ) fs fs') (hnd : ∀ t ∈ fs, t.cols.Nodup) (p : ℕ) (a : Params ℝ Str)
    {g : Graph Str ℝ}
    (hg : dynotearsFrames minimize fuel lambdaW lambdaA numeric (fs.map .frame) p a = .ok g) :
    ∃ g', dynotearsFrames minimize fuel lambdaW lambdaA numeric (fs'.map .frame) p a = .ok g' ∧
      g'.nodes.Perm g.nodes ∧ g'.edges.Perm g.edges := by
  have hp : p ≠ 0 := by
    rintro rfl
    obtain ⟨e, he⟩ := fromPandasDynamic_zero (problem lambdaW lambdaA) minimize fuel numeric (fs.map .frame) a
    unfold dynotearsFrames at hg
    rw [he] at hg
    cases hg
  have hgood : Transform.Good numeric none (fs.map .frame) := by
    by_contra hn
    obtain ⟨e, he⟩ := frames_error minimize fuel lambdaW lambdaA numeric _ p a hn
    rw [he] at hg
    cases hg
  have hfr : ∀ l : List (Transform.Frame Str T ℝ), Transform.framesOf (l.map .frame) = l := by
    intro l
    induction l with
    | nil => rfl
    | cons t l ih =>
      rw [List.map_cons, Transform.framesOf, List.filterMap_cons, ← Transform.framesOf, ih]
  obtain ⟨df, rest, h1, h2⟩ := id hgood
  cases h with
  | nil => simp at h1
  | @cons t t' fs fs' ht hfs =>
    have e1 : df = t := by
      have := (List.cons.inj h1).1
      simpa using this.symm
    subst e1
    have hall : List.Forall₂ (SameSeries σ) (df :: fs) (t' :: fs') := .cons ht hfs
    have hn : n = df.cols.length := ht.cols.length.symm
    subst hn
    have hgood' : Transform.Good numeric none ((t' :: fs').map .frame) := by
      refine ⟨t', _, List.map_cons .., fun e he => ?_⟩
      obtain ⟨u', hu', rfl⟩ := List.mem_map.1 he
      obtain ⟨u, hu, hs⟩ := forall₂_mem_right hall hu'
      obtain ⟨v, hv, q2, q3, q4, q5, q6, -⟩ := h2 (.frame u) (List.mem_map_of_mem hu)
      cases hv
      refine ⟨u', rfl, fun x hx => q2 x (hs.dtypes.perm.mem_iff.1 hx), ?_, ?_, by rw [hs.index]; exact q5,
        by rw [hs.indexInt]; exact q6, by simp⟩
      · have := hs.cols
        rw [q3] at this
        exact reordered_unique this ht.cols
      · have := hs.dtypes
        rw [q4] at this
        exact reordered_unique this ht.dtypes
    obtain ⟨X, Y, hl, hz, hr⟩ := frames_rows minimize fuel lambdaW lambdaA numeric hp a
      (List.map_cons ..) hgood
    obtain ⟨X', Y', hl', hz', hr'⟩ := frames_rows minimize fuel lambdaW lambdaA numeric hp a
      (List.map_cons ..) hgood'
    rw [hfr] at hz hz'
    have hraw : ∀ (cols : List Str) (l : List (Transform.Frame Str T ℝ)), l.flatMap (frameRows p cols) =
        (l.flatMap (rawRows p)).map fun q => (cols.map q.1, q.2.flatMap fun r => cols.map r) := by
      intro cols l
      rw [List.map_flatMap]
      simp only [← frameRows_raw]
    have hR : (t' :: fs').flatMap (rawRows p) = (df :: fs).flatMap (rawRows p) := by
      have : ∀ {l l' : List (Transform.Frame Str T ℝ)}, List.Forall₂ (SameSeries σ) l l' →
          l'.flatMap (rawRows p) = l.flatMap (rawRows p) := by
        intro l l' hl
        induction hl with
        | nil => rfl
        | cons h1 _ ih =>
          rw [List.flatMap_cons, List.flatMap_cons, ih]
          congr 1
          unfold rawRows
          rw [h1.index, h1.rows]
      exact this hall
    rw [hraw] at hz hz'
    rw [hR] at hz'
    have hmv := toData_moved (p := p) ht.cols hl hl' hz hz'
    rw [hr] at hg
    rw [hr', ht.cols.length']
    exact fromArrays_moved hm (hnd df (by simp)) ht.cols hmv
      (fun hd => problemDyn_moved hmv hd lambdaW lambdaA) a hg

end

end Verif.Dynotears
