import Verif.Notears.PropsOptimal

/-!
# C130: when the penalty is so large that no edge is learned
-/

namespace Verif.Notears

open Finset

/-! ### Penalised regression -/

section
variable {ρ ι μ : Type} (R : Finset ρ) (J : Finset ι) (M : Finset μ) (n : ℝ) (y : ρ → ι → ℝ) (z : ρ → μ → ℝ) (pen : μ → ℝ)

/-- Half the mean squared error of predicting the `y` linearly from the `z`, plus a penalty for the weights. -/
noncomputable def lassoCost (W : μ → ι → ℝ) : ℝ :=
  (∑ r ∈ R, ∑ j ∈ J, (y r j - ∑ m ∈ M, z r m * W m j) ^ 2) / (2 * n) + ∑ m ∈ M, ∑ j ∈ J, pen m * |W m j|

variable {R J M n y z pen}

theorem lassoCost_expand (W : μ → ι → ℝ) : lassoCost R J M n y z pen W =
    (∑ r ∈ R, ∑ j ∈ J, y r j ^ 2 - 2 * ∑ m ∈ M, ∑ j ∈ J, W m j * ∑ r ∈ R, z r m * y r j + ∑ r ∈ R, ∑ j ∈ J, (∑ m ∈ M, z r m * W m j) ^ 2) / (2 * n) +
      ∑ m ∈ M, ∑ j ∈ J, pen m * |W m j| := by
  unfold lassoCost
  congr 2
  have h1 : ∑ m ∈ M, ∑ j ∈ J, W m j * ∑ r ∈ R, z r m * y r j = ∑ r ∈ R, ∑ j ∈ J, y r j * ∑ m ∈ M, z r m * W m j := by
    simp only [Finset.mul_sum]
    rw [Finset.sum_comm]
    simp_rw [Finset.sum_comm (s := M) (t := R)]
    rw [Finset.sum_comm]
    refine Finset.sum_congr rfl fun r _ => Finset.sum_congr rfl fun j _ => Finset.sum_congr rfl fun m _ => ?_
    ring
  rw [h1, Finset.mul_sum, ← Finset.sum_sub_distrib, ← Finset.sum_add_distrib]
  refine Finset.sum_congr rfl fun r _ => ?_
  rw [Finset.mul_sum, ← Finset.sum_sub_distrib, ← Finset.sum_add_distrib]
  refine Finset.sum_congr rfl fun j _ => ?_
  ring

theorem lassoCost_zero : lassoCost R J M n y z pen (fun _ _ => 0) = (∑ r ∈ R, ∑ j ∈ J, y r j ^ 2) / (2 * n) := by
  simp [lassoCost]

/-- If the penalties are at least the correlations of the columns that may be used, no other weights are as good as zero. -/
theorem lasso_zero_best (hn : 0 < n) (hpen : ∀ m ∈ M, 0 < pen m) {W : μ → ι → ℝ}
    (hc : ∀ m ∈ M, ∀ j ∈ J, W m j ≠ 0 → |∑ r ∈ R, z r m * y r j| ≤ pen m * n)
    (hle : lassoCost R J M n y z pen W ≤ lassoCost R J M n y z pen fun _ _ => 0) : ∀ m ∈ M, ∀ j ∈ J, W m j = 0 := by
  rw [lassoCost_expand, lassoCost_zero] at hle
  set Y := ∑ r ∈ R, ∑ j ∈ J, y r j ^ 2
  set C := ∑ m ∈ M, ∑ j ∈ J, W m j * ∑ r ∈ R, z r m * y r j with hC
  set Q := ∑ r ∈ R, ∑ j ∈ J, (∑ m ∈ M, z r m * W m j) ^ 2 with hQ
  set L := ∑ m ∈ M, ∑ j ∈ J, pen m * |W m j| with hL
  have hQ0 : 0 ≤ Q := Finset.sum_nonneg fun _ _ => Finset.sum_nonneg fun _ _ => sq_nonneg _
  have hCL : C ≤ n * L := by
    rw [hC, hL, Finset.mul_sum]
    refine Finset.sum_le_sum fun m hm => ?_
    rw [Finset.mul_sum]
    refine Finset.sum_le_sum fun j hj => ?_
    by_cases h0 : W m j = 0
    · simp [h0]
    · refine (le_abs_self _).trans ?_
      rw [abs_mul]
      have := mul_le_mul_of_nonneg_left (hc m hm j hj h0) (abs_nonneg (W m j))
      linarith
  have hmain : -(2 * C) + Q + 2 * n * L ≤ 0 := by
    have h2 : (Y - 2 * C + Q) / (2 * n) + L - Y / (2 * n) = (-(2 * C) + Q + 2 * n * L) / (2 * n) := by
      field_simp
      ring
    have h3 : (-(2 * C) + Q + 2 * n * L) / (2 * n) ≤ 0 := by rw [← h2]; linarith
    by_contra hcon
    exact absurd h3 (not_le.2 (div_pos (not_le.1 hcon) (by linarith)))
  have hQz : Q = 0 := le_antisymm (by linarith) hQ0
  have hp : ∀ r ∈ R, ∀ j ∈ J, ∑ m ∈ M, z r m * W m j = 0 := by
    intro r hr j hj
    have h1 := (Finset.sum_eq_zero_iff_of_nonneg (fun r _ => Finset.sum_nonneg fun _ _ => sq_nonneg _)).1 hQz r hr
    exact pow_eq_zero_iff two_ne_zero |>.1 ((Finset.sum_eq_zero_iff_of_nonneg fun _ _ => sq_nonneg _).1 h1 j hj)
  have hCz : C = 0 := by
    have h1 : C = ∑ r ∈ R, ∑ j ∈ J, y r j * ∑ m ∈ M, z r m * W m j := by
      rw [hC]
      simp only [Finset.mul_sum]
      rw [Finset.sum_comm]
      simp_rw [Finset.sum_comm (s := M) (t := R)]
      rw [Finset.sum_comm]
      refine Finset.sum_congr rfl fun r _ => Finset.sum_congr rfl fun j _ => Finset.sum_congr rfl fun m _ => ?_
      ring
    rw [h1]
    refine Finset.sum_eq_zero fun r hr => Finset.sum_eq_zero fun j hj => ?_
    rw [hp r hr j hj, mul_zero]
  have hLz : L ≤ 0 := by
    rw [hCz, hQz] at hmain
    have : n * L ≤ 0 := by linarith
    by_contra hcon
    exact absurd this (not_le.2 (mul_pos hn (not_le.1 hcon)))
  have hnn : ∀ m ∈ M, ∀ j ∈ J, 0 ≤ pen m * |W m j| := fun m hm j _ => mul_nonneg (hpen m hm).le (abs_nonneg _)
  have hL0 : L = 0 := le_antisymm hLz (Finset.sum_nonneg fun m hm => Finset.sum_nonneg fun j hj => hnn m hm j hj)
  intro m hm j hj
  have h1 := (Finset.sum_eq_zero_iff_of_nonneg fun m hm => Finset.sum_nonneg fun j hj => hnn m hm j hj).1 hL0 m hm
  have h2 := (Finset.sum_eq_zero_iff_of_nonneg fun j hj => hnn m hm j hj).1 h1 j hj
  rcases mul_eq_zero.1 h2 with h3 | h3
  · exact absurd h3 (hpen m hm).ne'
  · exact abs_eq_zero.1 h3

variable [DecidableEq μ] [DecidableEq ι]

/-- If some penalty is below a correlation then a single weight is better than zero. -/
theorem lasso_single_better (hn : 0 < n) {m : μ} (hm : m ∈ M) {j : ι} (hj : j ∈ J) (hc : pen m * n < |∑ r ∈ R, z r m * y r j|) :
    ∃ c : ℝ, lassoCost R J M n y z pen (fun a b => if a = m ∧ b = j then c else 0) < lassoCost R J M n y z pen fun _ _ => 0 := by
  set C := ∑ r ∈ R, z r m * y r j with hC
  set q := ∑ r ∈ R, z r m ^ 2 with hq
  have hq0 : 0 ≤ q := Finset.sum_nonneg fun _ _ => sq_nonneg _
  have hval : ∀ c : ℝ, lassoCost R J M n y z pen (fun a b => if a = m ∧ b = j then c else 0) =
      (∑ r ∈ R, ∑ j ∈ J, y r j ^ 2 - 2 * (c * C) + c ^ 2 * q) / (2 * n) + pen m * |c| := by
    intro c
    rw [lassoCost_expand]
    have e1 : ∀ f : μ → ι → ℝ, (∀ a b, ¬ (a = m ∧ b = j) → f a b = 0) → ∑ a ∈ M, ∑ b ∈ J, f a b = f m j := by
      intro f hf
      rw [Finset.sum_eq_single_of_mem m hm fun a _ ha => Finset.sum_eq_zero fun b _ => hf a b fun h => ha h.1,
        Finset.sum_eq_single_of_mem j hj fun b _ hb => hf m b fun h => hb h.2]
    rw [e1 _ fun a b h => by simp only [if_neg h, zero_mul], e1 _ fun a b h => by simp only [if_neg h, abs_zero, mul_zero]]
    have e2 : ∑ r ∈ R, ∑ b ∈ J, (∑ a ∈ M, z r a * if a = m ∧ b = j then c else 0) ^ 2 = c ^ 2 * q := by
      rw [hq, Finset.mul_sum]
      refine Finset.sum_congr rfl fun r _ => ?_
      rw [Finset.sum_eq_single_of_mem j hj]
      · rw [Finset.sum_eq_single_of_mem m hm fun a _ ha => by rw [if_neg fun h => ha h.1, mul_zero], if_pos ⟨rfl, rfl⟩]
        ring
      · intro b _ hb
        rw [Finset.sum_eq_zero fun a _ => by rw [if_neg fun h => hb h.2, mul_zero]]
        ring
    rw [e2]
    simp only [and_self, if_true, hC]
  set D := |C| - pen m * n with hD
  have hD0 : 0 < D := by rw [hD]; linarith
  obtain ⟨s, hs1, hs2⟩ : ∃ s : ℝ, |s| = 1 ∧ s * C = |C| := by
    rcases le_total 0 C with h | h
    · exact ⟨1, abs_one, by rw [abs_of_nonneg h, one_mul]⟩
    · exact ⟨-1, by rw [abs_neg, abs_one], by rw [abs_of_nonpos h]; ring⟩
  set δ := D / (q + 1) with hδ
  have hδ0 : 0 < δ := div_pos hD0 (by linarith)
  refine ⟨s * δ, ?_⟩
  rw [hval, lassoCost_zero, abs_mul, hs1, one_mul, abs_of_pos hδ0]
  have hss : s ^ 2 = 1 := by rw [← sq_abs, hs1, one_pow]
  have e3 : s * δ * C = δ * |C| := by rw [← hs2]; ring
  have e4 : (s * δ) ^ 2 * q = δ ^ 2 * q := by rw [mul_pow, hss, one_mul]
  rw [e3, e4]
  set Y := ∑ r ∈ R, ∑ j ∈ J, y r j ^ 2
  have e5 : (Y - 2 * (δ * |C|) + δ ^ 2 * q) / (2 * n) + pen m * δ - Y / (2 * n) = δ * (δ * q - 2 * D) / (2 * n) := by
    rw [hD]
    field_simp
    ring
  have h6 : δ * q < 2 * D := by
    rw [hδ, div_mul_eq_mul_div, div_lt_iff₀ (by linarith)]
    nlinarith
  have h7 : δ * (δ * q - 2 * D) / (2 * n) < 0 := div_neg_of_neg_of_pos (mul_neg_of_pos_of_neg hδ0 (by linarith)) (by linarith)
  linarith

end

/-! ### `from_numpy_lasso` -/

/-- The sum over the rows of the products of two columns. -/
noncomputable def crossSum (X : Data ℝ) (i j : ℕ) : ℝ := ∑ r ∈ range X.rows, X.val r i * X.val r j

theorem lassoError_cost (beta : ℝ) (X : Data ℝ) (W : ℕ → ℕ → ℝ) :
    lassoError beta X W = lassoCost (range X.rows) (range X.cols) (range X.cols) X.rows X.val X.val (fun _ => beta) W := by
  unfold lassoError squaredError lassoCost absSum
  congr 1
  rw [Finset.mul_sum]
  exact Finset.sum_congr rfl fun i _ => Finset.mul_sum _ _ _

theorem acyclic_single {d m j : ℕ} (hne : m ≠ j) (c : ℝ) : AcyclicWeights d fun a b => if a = m ∧ b = j then c else 0 := by
  have : ∀ u w : Fin d, Relation.TransGen (fun u w : Fin d => (if (u : ℕ) = m ∧ (w : ℕ) = j then c else 0) ≠ 0) u w → (u : ℕ) = m ∧ (w : ℕ) = j := by
    intro u w h
    induction h with
    | single h => by_contra hc; rw [if_neg hc] at h; exact h rfl
    | tail _ h ih =>
      refine ⟨ih.1, ?_⟩
      by_contra hc
      rw [if_neg fun h' => hc h'.2] at h
      exact h rfl
  intro u h
  obtain ⟨h1, h2⟩ := this u u h
  exact hne (h1.symm.trans h2)

section
variable {minimize : Minimizer ℝ} {fuel : ℕ} {beta : ℝ} {X : Data ℝ} {a : Params ℝ ℕ} {g : Graph ℕ ℝ}

/-- **C130** for `from_numpy_lasso`: if `beta` is at least the mean product of each two columns between which an edge is permitted, and the optimiser
never returns a point worse than zero, then no edge is learned. -/
theorem notearsLasso_empty (hm : RespectsBounds minimize) (h : notearsLasso minimize fuel beta X a = .ok g) (hmax : a.maxIter ≠ 0) (hb : 0 < beta)
    (hzero : NotWorse (problemLasso beta X) minimize (boxLasso X.cols a.tabu) (List.replicate (2 * X.cols * X.cols) 0))
    (hc : ∀ i < X.cols, ∀ j < X.cols, Permitted a.tabu i j → |crossSum X i j| ≤ beta * X.rows) : g.edges = [] := by
  obtain ⟨-, hsize, s, hs, rfl⟩ := fromNumpyLasso_ok.1 h
  have hn : (0 : ℝ) < X.rows := by
    have : X.rows ≠ 0 := fun h0 => hsize (by rw [h0, Nat.zero_mul])
    exact_mod_cast Nat.pos_of_ne_zero this
  have hbox := learnLoop_inBox hm hs (boxLasso_zero _ _)
  obtain ⟨hb1, hb2⟩ := inBox_append hbox
  rw [List.length_map, cells_length, ← sq] at hb1 hb2
  have hforb : ∀ i < X.cols, ∀ j < X.cols, ¬ Permitted a.tabu i j → splitMatrix X.cols s.wEst i j = 0 := by
    intro i hi j hj hp
    rw [splitMatrix, inBox_forbidden hb1 hi hj hp, inBox_forbidden hb2 hi hj hp, sub_zero]
  have hz : ∀ i j, splitMatrix X.cols (List.replicate (2 * X.cols * X.cols) (0 : ℝ)) i j = 0 := by
    intro i j
    simp only [splitMatrix, reshape, List.take_replicate, List.drop_replicate, List.getD_eq_getElem?_getD, List.getElem?_replicate]
    split <;> split <;> simp
  have hm0 : matSplit X.cols (List.replicate (2 * X.cols * X.cols) (0 : ℝ)) = fun _ _ : Fin X.cols => 0 := by
    funext i j
    exact hz i j
  have hbest := learnLoop_best (problemLasso_penalised beta X) hm hs hmax (boxLasso_zero _ _)
    (by rw [hm0]; exact (expScore_eq_zero_iff _).2 (acyclic_zero _)) hzero
  rw [List.sum_replicate, smul_zero, mul_zero, add_zero, squaredError_congr X (V := fun _ _ => 0) fun i _ j _ => hz i j] at hbest
  have hp := lasso_penalty _ _ hbox
  rw [← absSum_eq] at hp
  have hp' := mul_le_mul_of_nonneg_left hp hb.le
  have hle : lassoError beta X (splitMatrix X.cols s.wEst) ≤ lassoError beta X fun _ _ => 0 := by
    have e : lassoError beta X (fun _ _ => 0) = squaredError X fun _ _ => 0 := by simp [lassoError, absSum]
    rw [e]
    unfold lassoError
    linarith
  rw [lassoError_cost, lassoError_cost] at hle
  have hW := lasso_zero_best hn (fun _ _ => hb) (fun i hi j hj hne => hc i (Finset.mem_range.1 hi) j (Finset.mem_range.1 hj) (by
    by_contra hp
    exact hne (hforb i (Finset.mem_range.1 hi) j (Finset.mem_range.1 hj) hp))) hle
  refine List.eq_nil_iff_forall_not_mem.2 fun e he => ?_
  obtain ⟨h1, h2, h3, -⟩ := mem_ofMatrix.1 he
  exact (cutStrict_ne_zero.1 h3).1 (hW _ (Finset.mem_range.2 h1) _ (Finset.mem_range.2 h2))

/-- **C130** for `from_numpy_lasso`: with an optimiser that finds minima and no threshold, the learned graph is empty exactly if `beta` is at least
the mean product of each two columns between which an edge is permitted. -/
theorem notearsLasso_empty_iff (hm : RespectsBounds minimize) (h : notearsLasso minimize fuel beta X a = .ok g) (hmax : a.maxIter ≠ 0) (hb : 0 < beta)
    (hopt : FindsMinima (problemLasso beta X) minimize (boxLasso X.cols a.tabu)) (hthr : a.wThreshold = 0) :
    g.edges = [] ↔ ∀ i < X.cols, ∀ j < X.cols, Permitted a.tabu i j → |crossSum X i j| ≤ beta * X.rows := by
  refine ⟨fun hg i hi j hj hp => ?_, notearsLasso_empty hm h hmax hb (hopt _ (boxLasso_zero _ _))⟩
  by_contra hcon
  obtain ⟨-, hsize, -⟩ := fromNumpyLasso_ok.1 h
  have hn : (0 : ℝ) < X.rows := by
    have : X.rows ≠ 0 := fun h0 => hsize (by rw [h0, Nat.zero_mul])
    exact_mod_cast Nat.pos_of_ne_zero this
  obtain ⟨c, hlt⟩ := lasso_single_better (R := range X.rows) (J := range X.cols) (M := range X.cols) (y := X.val) (z := X.val) (pen := fun _ => beta) hn
    (Finset.mem_range.2 hi) (Finset.mem_range.2 hj) (not_le.1 hcon)
  rw [← lassoError_cost, ← lassoError_cost] at hlt
  have h1 := notearsLasso_minimum hm h hmax hb.le hopt hthr _ (acyclic_single hp.1 c) fun u _ v _ hne => by
    have : u = i ∧ v = j := by by_contra hc; exact hne (if_neg hc)
    rw [this.1, this.2]
    exact hp
  have h2 : g.weight = fun _ _ => 0 := by
    funext u v
    simp [Graph.weight, hg]
  rw [h2] at h1
  linarith

end

end Verif.Notears
