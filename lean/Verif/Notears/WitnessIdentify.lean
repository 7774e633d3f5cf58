import Verif.Notears.WitnessOptimal
import Verif.Notears.PropsIdentify

/-!
# Concrete cases for C125
-/

namespace Verif.Notears.Witness

open Matrix Finset

/-- Data with as many rows as columns in which the error for column `j` is `c` in row `j`, else 0. -/
noncomputable def cleanData (d : ℕ) (V : ℕ → ℕ → ℝ) (c : ℝ) : Data ℝ where
  rows := d
  cols := d
  entry i j := some (if h : i < d ∧ j < d then c * ((1 - Matrix.of fun i j : Fin d => V i j)⁻¹ : Matrix (Fin d) (Fin d) ℝ) ⟨i, h.1⟩ ⟨j, h.2⟩ else 0)

theorem clean_residual {d : ℕ} {V : ℕ → ℕ → ℝ} (hV : AcyclicWeights d V) (c : ℝ) (i j : Fin d) :
    (cleanData d V c).residual V i j = if i = j then c else 0 := by
  have h := residual_eq (cleanData d V c) V i j
  rw [h]
  have hX : (cleanData d V c).matrix = c • ((1 - Matrix.of fun i j : Fin d => V i j)⁻¹ : Matrix (Fin d) (Fin d) ℝ) := by
    funext a b
    simp only [Data.matrix, cleanData, Option.getD_some, Matrix.smul_apply, smul_eq_mul]
    rw [dif_pos ⟨a.2, b.2⟩]
    rfl
  rw [hX]
  have hdet : IsUnit (1 - Matrix.of fun i j : Fin d => V i j).det := by
    rw [NoCycle.det (show NoCycle (Matrix.of fun i j : Fin d => V i j) from hV)]; exact isUnit_one
  change (c • (1 - Matrix.of fun i j : Fin d => V i j)⁻¹ * (1 - Matrix.of fun i j : Fin d => V i j) : Matrix (Fin d) (Fin d) ℝ) i j = _
  rw [Matrix.smul_mul, Matrix.nonsing_inv_mul _ hdet, Matrix.smul_apply, Matrix.one_apply]
  simp

theorem clean_equal {d : ℕ} {V : ℕ → ℕ → ℝ} (hV : AcyclicWeights d V) (c : ℝ) :
    EqualErrors (cleanData d V c) V (c ^ 2 / d) 0 := by
  intro j hj k hk
  change j < d at hj
  change k < d at hk
  have : (cleanData d V c).residualProduct V j k = if j = k then c ^ 2 / d else 0 := by
    unfold Data.residualProduct
    change (∑ i ∈ range d, _) / (d : ℝ) = _
    rw [Finset.sum_range]
    have h1 : ∀ i : Fin d, (cleanData d V c).residual V i j * (cleanData d V c).residual V i k =
        (if i = ⟨j, hj⟩ then c else 0) * if i = ⟨k, hk⟩ then c else 0 := fun i =>
      congrArg₂ (· * ·) (clean_residual hV c i ⟨j, hj⟩) (clean_residual hV c i ⟨k, hk⟩)
    rw [Finset.sum_congr rfl fun i _ => h1 i]
    simp only [ite_mul, zero_mul, Finset.sum_ite_eq', Finset.mem_univ, if_true, Fin.mk.injEq]
    by_cases hjk : j = k
    · rw [if_pos hjk, if_pos hjk, sq]
    · rw [if_neg hjk, if_neg hjk]; simp
  rw [this, sub_self, abs_zero]

/-- The hypotheses of `identified` and `notears_recovers` can be met for all acyclic weights with at least one column: there are
data, parameters and an optimiser for which `from_numpy` returns exactly the given graph. -/
theorem recovery_possible {d : ℕ} (hd : 0 < d) {V : ℕ → ℕ → ℝ} (hV : AcyclicWeights d V) {ε thr : ℝ} (hε : 0 < ε) (hthr : ε ≤ thr)
    (hbig : ∀ i < d, ∀ j < d, V i j ≠ 0 → thr + ε ≤ |V i j|) :
    ∃ (X : Data ℝ) (v : ℝ) (minimize : Minimizer ℝ) (a : Params ℝ ℕ) (g : Graph ℕ ℝ), X.cols = d ∧ 0 < v ∧ EqualErrors X V v 0 ∧
      RespectsBounds minimize ∧ notears minimize 21 X a = .ok g ∧ a.wThreshold = thr ∧
      fromNumpyWarns (problem X) minimize 21 X a = false ∧
      (∀ i j, (∃ x o, (⟨i, j, x, o⟩ : Edge ℕ ℝ) ∈ g.edges) ↔ i < d ∧ j < d ∧ V i j ≠ 0) ∧
      ∀ i j x o, (⟨i, j, x, o⟩ : Edge ℕ ℝ) ∈ g.edges → |x - V i j| < ε := by
  obtain ⟨δ, hδ, hrec⟩ := notears_recovers hV hε
  let a : Params ℝ ℕ := ⟨1, δ, thr, ⟨none, none, none⟩⟩
  have hd' : (0 : ℝ) < d := by exact_mod_cast hd
  have hper : ∀ i < d, ∀ j < d, V i j ≠ 0 → Permitted a.tabu i j := by
    intro i _ j _ hne
    refine ⟨?_, by simp [a], by simp [a], by simp [a]⟩
    rintro rfl
    exact hne (NoCycle.diag hV ⟨i, by assumption⟩)
  have hv : 0 < δ ^ 2 / d := by positivity
  obtain ⟨g, hg⟩ := notears_total (better (rowMajor d V)) (cleanData d V δ) a ⟨by simp [Data.finite, cleanData], by
    change d * d ≠ 0
    positivity⟩
  have hg := hg 21 (le_refl _)
  have hE := clean_equal hV δ
  have hnw : NotWorse (problem (cleanData d V δ)) (better (rowMajor d V)) (box d a.tabu) (rowMajor d V) :=
    better_notWorse _ (box_permitted hper)
  have hsq : 2 * squaredError (cleanData d V δ) V = δ ^ 2 := by
    rw [squaredError_self]
    have : ∀ j : Fin (cleanData d V δ).cols, (cleanData d V δ).residualProduct V j j = δ ^ 2 / d := fun j => by
      have := hE j j.2 j j.2
      rw [if_pos rfl] at this
      exact sub_eq_zero.1 (abs_nonpos_iff.1 this)
    rw [Finset.sum_congr rfl fun j _ => this j, Finset.sum_const, Finset.card_univ, Fintype.card_fin, nsmul_eq_mul]
    change (d : ℝ) * _ = _
    field_simp
  have hw : fromNumpyWarns (problem (cleanData d V δ)) (better (rowMajor d V)) 21 (cleanData d V δ) a = false :=
    notears_no_warning (better_respects _) hg (by simp [a]) hV hnw hδ.le
      (by rw [hsq]; change δ ^ 2 ≤ 10 ^ 19 * δ ^ 2; nlinarith [sq_nonneg δ])
      (by rw [hsq]; change δ ^ 2 ≤ (δ * 4 ^ (1 - 1)) ^ 2; simp)
  have := hrec (cleanData d V δ) _ (better (rowMajor d V)) 21 a g rfl hv (fun j hj k hk => (hE j hj k hk).trans (by positivity))
    (better_respects _) hg (by simp [a]) hnw hw (le_refl _) hthr hbig
  exact ⟨cleanData d V δ, _, better (rowMajor d V), a, g, rfl, hv, hE, better_respects _, hg, rfl, hw, this⟩

/-- The same for `from_numpy_lasso`, with a positive penalty. -/
theorem recoveryLasso_possible {d : ℕ} (hd : 0 < d) {V : ℕ → ℕ → ℝ} (hV : AcyclicWeights d V) {ε thr : ℝ} (hε : 0 < ε) (hthr : ε ≤ thr)
    (hbig : ∀ i < d, ∀ j < d, V i j ≠ 0 → thr + ε ≤ |V i j|) :
    ∃ (X : Data ℝ) (v : ℝ) (minimize : Minimizer ℝ) (beta : ℝ) (a : Params ℝ ℕ) (g : Graph ℕ ℝ), X.cols = d ∧ 0 < v ∧
      EqualErrors X V v 0 ∧ 0 < beta ∧
      RespectsBounds minimize ∧ notearsLasso minimize 21 beta X a = .ok g ∧ a.wThreshold = thr ∧
      fromNumpyLassoWarns (problemLasso beta X) minimize 21 X a = false ∧
      (∀ i j, (∃ x o, (⟨i, j, x, o⟩ : Edge ℕ ℝ) ∈ g.edges) ↔ i < d ∧ j < d ∧ V i j ≠ 0) ∧
      ∀ i j x o, (⟨i, j, x, o⟩ : Edge ℕ ℝ) ∈ g.edges → |x - V i j| < ε := by
  obtain ⟨δ, hδ, hrec⟩ := notearsLasso_recovers hV hε
  let a : Params ℝ ℕ := ⟨2, δ, thr, ⟨none, none, none⟩⟩
  have hd' : (0 : ℝ) < d := by exact_mod_cast hd
  have hv : 0 < δ ^ 2 / d := by positivity
  have hs0 : 0 ≤ absSum d V := Finset.sum_nonneg fun _ _ => Finset.sum_nonneg fun _ _ => abs_nonneg _
  let beta : ℝ := δ ^ 2 / d * min δ 1 / (1 + absSum d V)
  have hbeta : 0 < beta := by
    have : 0 < min δ 1 := lt_min hδ one_pos
    positivity
  have hbs : beta * absSum d V ≤ δ ^ 2 / d * min δ 1 := by
    change δ ^ 2 / d * min δ 1 / (1 + absSum d V) * absSum d V ≤ _
    rw [div_mul_eq_mul_div, div_le_iff₀ (by positivity)]
    have : 0 ≤ δ ^ 2 / d * min δ 1 := mul_nonneg hv.le (lt_min hδ one_pos).le
    nlinarith
  obtain ⟨w₀, r1, r2, r3⟩ := (lasso_representation d a.tabu V).2 fun i hi j hj hp => by
    by_contra hne
    refine hp ⟨?_, by simp [a], by simp [a], by simp [a]⟩
    rintro rfl
    exact hne (NoCycle.diag hV ⟨i, hi⟩)
  rw [← absSum_eq] at r3
  obtain ⟨g, hg⟩ := (fromNumpyLasso_total (minimize := better w₀) (problemLasso_finite beta (cleanData d V δ)) (le_refl 21)
    (cleanData d V δ) a).1 ⟨by simp [Data.finite, cleanData], by
    change d * d ≠ 0
    positivity⟩
  have hE := clean_equal hV δ
  have hnw : NotWorse (problemLasso beta (cleanData d V δ)) (better w₀) (boxLasso d a.tabu) w₀ := better_notWorse _ r1
  have hsq : 2 * squaredError (cleanData d V δ) V = δ ^ 2 := by
    rw [squaredError_self]
    have : ∀ j : Fin (cleanData d V δ).cols, (cleanData d V δ).residualProduct V j j = δ ^ 2 / d := fun j => by
      have := hE j j.2 j j.2
      rw [if_pos rfl] at this
      exact sub_eq_zero.1 (abs_nonpos_iff.1 this)
    rw [Finset.sum_congr rfl fun j _ => this j, Finset.sum_const, Finset.card_univ, Fintype.card_fin, nsmul_eq_mul]
    change (d : ℝ) * _ = _
    field_simp
  have hle : 2 * lassoError beta (cleanData d V δ) V ≤ 3 * δ ^ 2 := by
    have h1 : lassoError beta (cleanData d V δ) V = squaredError (cleanData d V δ) V + beta * absSum d V := rfl
    have h2 : δ ^ 2 / d * min δ 1 ≤ δ ^ 2 := by
      have h3 : δ ^ 2 / d * min δ 1 ≤ δ ^ 2 / d * 1 := mul_le_mul_of_nonneg_left (min_le_right _ _) hv.le
      have h4 : δ ^ 2 / d ≤ δ ^ 2 := div_le_self (sq_nonneg _) (by exact_mod_cast hd)
      linarith
    rw [h1]
    linarith
  have hw : fromNumpyLassoWarns (problemLasso beta (cleanData d V δ)) (better w₀) 21 (cleanData d V δ) a = false :=
    notearsLasso_no_warning (better_respects _) hg (by simp [a]) hbeta.le hV r2 r3 hnw hδ.le
      (hle.trans (by change 3 * δ ^ 2 ≤ 10 ^ 19 * δ ^ 2; nlinarith [sq_nonneg δ]))
      (hle.trans (by change 3 * δ ^ 2 ≤ (δ * 4 ^ (2 - 1)) ^ 2; norm_num; nlinarith [sq_nonneg δ]))
  have := hrec (cleanData d V δ) _ (better w₀) 21 beta a g w₀ rfl hv (fun j hj k hk => (hE j hj k hk).trans (by positivity))
    (better_respects _) hg (by simp [a]) r2 r3 hbeta.le
    (hbs.trans (by rw [mul_comm]; exact mul_le_mul_of_nonneg_right (min_le_left _ _) hv.le)) hnw hw (le_refl _) hthr hbig
  exact ⟨cleanData d V δ, _, better w₀, beta, a, g, rfl, hv, hE, hbeta, better_respects _, hg, rfl, hw, this⟩

/-- The chain `0 → 1 → 2` with weights 2 and -1 meets the hypotheses of `recovery_possible`. -/
def chainWeights (i j : ℕ) : ℝ := if i = 0 ∧ j = 1 then 2 else if i = 1 ∧ j = 2 then -1 else 0

theorem chain_acyclic : AcyclicWeights 3 chainWeights := by
  have key : ∀ i j : Fin 3, Relation.TransGen (fun a b : Fin 3 => chainWeights a b ≠ 0) i j → i < j := by
    intro i j h
    induction h with
    | single h =>
      rename_i b
      revert h
      fin_cases i <;> fin_cases b <;> simp [chainWeights]
    | tail _ h ih =>
      refine ih.trans ?_
      rename_i b c _
      revert h
      fin_cases b <;> fin_cases c <;> simp [chainWeights]
  exact fun i h => lt_irrefl _ (key i i h)

example := recovery_possible (d := 3) (by norm_num) chain_acyclic (ε := 1 / 10) (thr := 3 / 10) (by norm_num) (by norm_num) (by
  intro i _ j _ h
  unfold chainWeights at h ⊢
  split_ifs at h ⊢
  · norm_num
  · norm_num
  · exact absurd rfl h)

/-! ### Errors of different size mislead -/

/-- `x0 = (2, 2)` and `x1 = x0 / 2 + (1, -1)`. -/
def skewData : Data ℝ where
  rows := 2
  cols := 2
  entry i j := some (if j = 0 then 2 else if i = 0 then 2 else 0)

noncomputable def forward (i j : ℕ) : ℝ := if i = 0 ∧ j = 1 then 1 / 2 else 0
def backward (i j : ℕ) : ℝ := if i = 1 ∧ j = 0 then 1 else 0

/-- **C125**: without equal sizes the claim fails.  The errors of `x1 = x0 / 2 + e` are uncorrelated, with mean squares 4 and 1, yet
the reversed graph fits better. -/
theorem unequal_misleads : AcyclicWeights 2 forward ∧ AcyclicWeights 2 backward ∧ skewData.residualProduct forward 0 1 = 0 ∧
    skewData.residualProduct forward 0 0 = 4 ∧ skewData.residualProduct forward 1 1 = 1 ∧
    squaredError skewData backward < squaredError skewData forward := by
  refine ⟨?_, ?_, ?_, ?_, ?_, ?_⟩
  · have key : ∀ i j : Fin 2, Relation.TransGen (fun a b : Fin 2 => forward a b ≠ 0) i j → i < j := by
      intro i j h
      induction h with
      | single h => rename_i b; revert h; fin_cases i <;> fin_cases b <;> simp [forward]
      | tail _ h ih => refine ih.trans ?_; rename_i b c _; revert h; fin_cases b <;> fin_cases c <;> simp [forward]
    exact fun i h => lt_irrefl _ (key i i h)
  · have key : ∀ i j : Fin 2, Relation.TransGen (fun a b : Fin 2 => backward a b ≠ 0) i j → j < i := by
      intro i j h
      induction h with
      | single h => rename_i b; revert h; fin_cases i <;> fin_cases b <;> simp [backward]
      | tail _ h ih => refine lt_trans ?_ ih; rename_i b c _; revert h; fin_cases b <;> fin_cases c <;> simp [backward]
    exact fun i h => lt_irrefl _ (key i i h)
  all_goals simp [squaredError, Data.residualProduct, Data.residual, Data.val, skewData, forward, backward, Finset.sum_range_succ]
  all_goals norm_num

end Verif.Notears.Witness
