import Verif.Dynotears.Identify

/-!
# C131: dynamic linear models with errors of equal size are identified

If the variables follow linear equations, acyclic within a time step, whose errors are (nearly) uncorrelated with one another and with
the earlier values and (nearly) of the same size, then the weights of these equations are the ones DYNOTEARS learns.
-/

namespace Verif.Dynotears

open Verif.Notears Verif.Str Matrix Finset

/-! ### Specification -/

/-- The error of the linear equation for variable `j` in row `r`. -/
noncomputable def residualDyn (X Xlags : Data ℝ) (p : ℕ) (w : ℕ → ℕ → ℕ → ℝ) (r j : ℕ) : ℝ :=
  X.val r j - ∑ i ∈ range X.cols, X.val r i * w 0 i j - ∑ k ∈ range p, ∑ i ∈ range X.cols, Xlags.val r (k * X.cols + i) * w (k + 1) i j

/-- Up to `δ`, the errors for different variables are uncorrelated, all have the mean square `v`, and they are uncorrelated with the
earlier values. -/
structure EqualErrorsDyn (X Xlags : Data ℝ) (p : ℕ) (w : ℕ → ℕ → ℕ → ℝ) (v δ : ℝ) : Prop where
  equal : ∀ j < X.cols, ∀ k < X.cols,
    |(∑ r ∈ range X.rows, residualDyn X Xlags p w r j * residualDyn X Xlags p w r k) / X.rows - if j = k then v else 0| ≤ δ
  lags : ∀ j < X.cols, ∀ m < Xlags.cols, |(∑ r ∈ range X.rows, residualDyn X Xlags p w r j * Xlags.val r m) / X.rows| ≤ δ

/-- Every linear combination of the earlier values has a mean square of at least `κ` times the sum of its squared coefficients. -/
def LagsVary (X Xlags : Data ℝ) (κ : ℝ) : Prop :=
  ∀ c : ℕ → ℝ, κ * ∑ m ∈ range Xlags.cols, c m ^ 2 ≤ (∑ r ∈ range X.rows, (∑ m ∈ range Xlags.cols, Xlags.val r m * c m) ^ 2) / X.rows

/-! ### Matrices -/

/-- The weights of the lags, one row for each column of `Xlags`. -/
noncomputable def lagMat (d L : ℕ) (w : ℕ → ℕ → ℕ → ℝ) : Matrix (Fin L) (Fin d) ℝ := fun m j => w (m / d + 1) (m % d) j

/-- The weights within a time step. -/
noncomputable def nowMat (d : ℕ) (w : ℕ → ℕ → ℕ → ℝ) : Matrix (Fin d) (Fin d) ℝ := fun i j => w 0 i j

/-- The earlier values. -/
noncomputable def lagData (X Xlags : Data ℝ) : Matrix (Fin X.rows) (Fin Xlags.cols) ℝ := fun r m => Xlags.val r m

/-- The errors. -/
noncomputable def errors (X Xlags : Data ℝ) (p : ℕ) (w : ℕ → ℕ → ℕ → ℝ) : Matrix (Fin X.rows) (Fin X.cols) ℝ := fun r j => residualDyn X Xlags p w r j

section
variable {X Xlags : Data ℝ} {p : ℕ} (hp : Xlags.cols = p * X.cols)
include hp

theorem errors_eq (w : ℕ → ℕ → ℕ → ℝ) : errors X Xlags p w = X.matrix * (1 - nowMat X.cols w) - lagData X Xlags * lagMat X.cols Xlags.cols w := by
  funext r j
  rw [Matrix.sub_apply, Matrix.mul_sub, Matrix.mul_one, Matrix.sub_apply, Matrix.mul_apply, Matrix.mul_apply]
  unfold errors residualDyn
  congr 1
  · congr 1
    rw [Finset.sum_range]
    rfl
  · have := sum_blocks (fun m => Xlags.val r m * w (m / X.cols + 1) (m % X.cols) j) p X.cols
    rw [← hp, Finset.sum_range] at this
    refine (this.trans ?_).symm
    refine Finset.sum_congr rfl fun k _ => Finset.sum_congr rfl fun i hi => ?_
    rw [Finset.mem_range] at hi
    rw [Nat.add_comm (k * X.cols) i, Nat.add_mul_div_right _ _ (by omega), Nat.div_eq_of_lt hi, Nat.zero_add,
      Nat.add_mul_mod_self_right, Nat.mod_eq_of_lt hi]

omit hp in
theorem squaredErrorDyn_sumSq (w : ℕ → ℕ → ℕ → ℝ) : 2 * squaredErrorDyn X Xlags p w = sumSq (errors X Xlags p w) / X.rows := by
  unfold squaredErrorDyn sumSq errors residualDyn
  rw [Finset.sum_range]
  simp only [Finset.sum_range (n := X.cols)]
  by_cases h : (X.rows : ℝ) = 0
  · rw [h]; simp
  · field_simp

/-- The errors of other weights. -/
theorem errors_other (u w : ℕ → ℕ → ℕ → ℝ) {T : Matrix (Fin X.cols) (Fin X.cols) ℝ} (hT : 1 - nowMat X.cols w = (1 - nowMat X.cols u) * T) :
    errors X Xlags p w = errors X Xlags p u * T + lagData X Xlags * (lagMat X.cols Xlags.cols u * T - lagMat X.cols Xlags.cols w) := by
  rw [errors_eq hp, errors_eq hp, hT, ← Matrix.mul_assoc, Matrix.sub_mul, Matrix.mul_sub (lagData X Xlags), ← Matrix.mul_assoc]
  abel

omit hp in
theorem equal_errors {u : ℕ → ℕ → ℕ → ℝ} {v δ : ℝ} (h : EqualErrorsDyn X Xlags p u v δ) (a b : Fin X.cols) :
    |(∑ r, errors X Xlags p u r a * errors X Xlags p u r b) / X.rows - if a = b then v else 0| ≤ δ := by
  have := h.equal a a.2 b b.2
  simp only [Fin.val_inj, Finset.sum_range] at this
  exact this

omit hp in
theorem lag_errors {u : ℕ → ℕ → ℕ → ℝ} {v δ : ℝ} (h : EqualErrorsDyn X Xlags p u v δ) (a : Fin X.cols) (l : Fin Xlags.cols) :
    |(∑ r, errors X Xlags p u r a * lagData X Xlags r l) / X.rows| ≤ δ := by
  have := h.lags a a.2 l l.2
  simp only [Finset.sum_range] at this
  exact this

omit hp in
theorem lags_vary {κ : ℝ} (h : LagsVary X Xlags κ) (c : Fin Xlags.cols → ℝ) :
    κ * ∑ l, c l ^ 2 ≤ (∑ r, (∑ l, lagData X Xlags r l * c l) ^ 2) / X.rows := by
  have := h fun m => if hm : m < Xlags.cols then c ⟨m, hm⟩ else 0
  simp only [Finset.sum_range, Fin.is_lt, dif_pos] at this
  exact this

theorem lagMat_apply {k i j : ℕ} (hk : k < p) (hi : i < X.cols) (hj : j < X.cols) :
    ∃ m : Fin Xlags.cols, ∀ w : ℕ → ℕ → ℕ → ℝ, lagMat X.cols Xlags.cols w m ⟨j, hj⟩ = w (k + 1) i j := by
  have hm : k * X.cols + i < Xlags.cols := by
    rw [hp]
    calc k * X.cols + i < k * X.cols + X.cols := by omega
      _ = (k + 1) * X.cols := by ring
      _ ≤ p * X.cols := Nat.mul_le_mul_right _ hk
  refine ⟨⟨k * X.cols + i, hm⟩, fun w => ?_⟩
  unfold lagMat
  simp only
  rw [Nat.add_comm (k * X.cols) i, Nat.add_mul_div_right _ _ (by omega), Nat.div_eq_of_lt hi, Nat.zero_add,
    Nat.add_mul_mod_self_right, Nat.mod_eq_of_lt hi]

end

theorem shapes_lags {X Xlags : Data ℝ} (hS : Shapes X Xlags) : Xlags.cols = Xlags.cols / X.cols * X.cols := by
  obtain ⟨-, hd, -, -, hdvd⟩ := hS
  exact (Nat.div_mul_cancel hdvd).symm

/-! ### Theorems -/

/-- **C131**, identification: if the errors of linear equations, acyclic within a time step, are uncorrelated with one another and with the
earlier values and of the same size, then no other weights, acyclic within a time step, have as small a squared error; if the earlier values are
not linearly dependent. -/
theorem identified_dyn {X Xlags : Data ℝ} (hS : Shapes X Xlags) {u w : ℕ → ℕ → ℕ → ℝ} {v κ : ℝ} (hu : AcyclicWeights X.cols (u 0)) (hv : 0 < v)
    (hκ : 0 < κ) (hE : EqualErrorsDyn X Xlags (Xlags.cols / X.cols) u v 0) (hL : LagsVary X Xlags κ) (hw : AcyclicWeights X.cols (w 0)) :
    squaredErrorDyn X Xlags (Xlags.cols / X.cols) u ≤ squaredErrorDyn X Xlags (Xlags.cols / X.cols) w ∧
      (squaredErrorDyn X Xlags (Xlags.cols / X.cols) w = squaredErrorDyn X Xlags (Xlags.cols / X.cols) u ↔
        ∀ k ≤ Xlags.cols / X.cols, ∀ i < X.cols, ∀ j < X.cols, w k i j = u k i j) := by
  have hp := shapes_lags hS
  have hd := hS.2.1
  generalize Xlags.cols / X.cols = p at *
  obtain ⟨T, hT⟩ := exists_factor (U := nowMat X.cols u) hu (nowMat X.cols w)
  have hs := squares_of_noCycle (U := nowMat X.cols u) (W := nowMat X.cols w) hu hw hT
  rw [Fintype.card_fin] at hs
  have hge := mean_ge T (lagMat X.cols Xlags.cols u * T - lagMat X.cols Xlags.cols w) (le_refl 0) (equal_errors hE) (lag_errors hE) (lags_vary hL)
  rw [← errors_other hp u w hT, ← squaredErrorDyn_sumSq, zero_mul, zero_mul, sub_zero, sub_zero] at hge
  have hself : 2 * squaredErrorDyn X Xlags p u = v * X.cols := by
    have hG : ∀ a : Fin X.cols, (∑ r, errors X Xlags p u r a * errors X Xlags p u r a) / X.rows = v := by
      intro a
      have := equal_errors hE a a
      rw [if_pos rfl] at this
      exact sub_eq_zero.1 (abs_nonpos_iff.1 this)
    rw [squaredErrorDyn_sumSq, sumSq, Finset.sum_comm, Finset.sum_div]
    simp only [sq]
    rw [Finset.sum_congr rfl fun a _ => hG a, Finset.sum_const, Finset.card_univ, Fintype.card_fin, nsmul_eq_mul, mul_comm]
  have hD0 := sumSq_nonneg (lagMat X.cols Xlags.cols u * T - lagMat X.cols Xlags.cols w)
  have hD1 := mul_nonneg hκ.le hD0
  change (X.cols : ℝ) ≤ sumSq T ∧ (sumSq T = _ ↔ _) at hs
  have hT1 := mul_le_mul_of_nonneg_left hs.1 hv.le
  refine ⟨by linarith, fun heq => ?_, fun heq => squaredErrorDyn_congr X Xlags p heq⟩
  have hTe : sumSq T = X.cols := by
    refine le_antisymm ?_ hs.1
    exact le_of_mul_le_mul_left (by linarith) hv
  have hDe : sumSq (lagMat X.cols Xlags.cols u * T - lagMat X.cols Xlags.cols w) = 0 := by
    rw [hTe] at hge
    have : κ * sumSq (lagMat X.cols Xlags.cols u * T - lagMat X.cols Xlags.cols w) = 0 := by linarith
    exact (mul_eq_zero.1 this).resolve_left hκ.ne'
  have hWU := hs.2.1 hTe
  have hT1 : T = 1 := by
    have hunit : IsUnit (1 - nowMat X.cols u) := by
      rw [isUnit_iff_isUnit_det, NoCycle.det (W := nowMat X.cols u) hu]
      exact isUnit_one
    have h1 : (1 - nowMat X.cols u) * T = (1 - nowMat X.cols u) * 1 := by rw [Matrix.mul_one, ← hT, hWU]
    exact hunit.mul_left_cancel h1
  intro k hk i hi j hj
  rcases Nat.eq_zero_or_pos k with rfl | hk0
  · exact congrFun (congrFun hWU ⟨i, hi⟩) ⟨j, hj⟩
  · obtain ⟨m, hm⟩ := lagMat_apply hp (k := k - 1) (by omega) hi hj
    have h1 := entry_sq_le (lagMat X.cols Xlags.cols u * T - lagMat X.cols Xlags.cols w) m ⟨j, hj⟩
    rw [hDe] at h1
    have h2 := pow_eq_zero_iff two_ne_zero |>.1 (le_antisymm h1 (sq_nonneg _))
    rw [hT1, Matrix.mul_one, Matrix.sub_apply, hm, hm, Nat.sub_add_cancel hk0] at h2
    linarith

/-- **C131**, stability: if the errors are nearly uncorrelated and nearly of the same size, then all weights that fit nearly as well and whose weights
within a time step have a small acyclicity score are close to those of the equations. -/
theorem identified_dyn_near {d p : ℕ} (hd : d ≠ 0) {u : ℕ → ℕ → ℕ → ℝ} {κ ε : ℝ} (hu : AcyclicWeights d (u 0)) (hκ : 0 < κ) (hε : 0 < ε) :
    ∃ δ > 0, ∀ (X Xlags : Data ℝ) (v : ℝ), X.cols = d → Xlags.cols = p * d → 0 < v → EqualErrorsDyn X Xlags p u v (δ * v) → LagsVary X Xlags (κ * v) → ∀ w : ℕ → ℕ → ℕ → ℝ,
      squaredErrorDyn X Xlags p w ≤ squaredErrorDyn X Xlags p u + δ * v → expScore (fun i j : Fin d => w 0 i j) ≤ δ →
      ∀ k ≤ p, ∀ i < d, ∀ j < d, |w k i j - u k i j| < ε := by
  obtain ⟨η, hη, hclose⟩ := close_dyn_scaled (L := p * d) (U := nowMat d u) hu (lagMat d (p * d) u) hκ hε
  have hden : 0 < (d : ℝ) + 2 + 1 := by positivity
  obtain ⟨δ, hδ, hδη, hδd⟩ : ∃ δ > 0, δ ≤ η ∧ δ * (d + 2 + 1) ≤ η := by
    refine ⟨min η (η / (d + 2 + 1)), lt_min hη (by positivity), min_le_left _ _, ?_⟩
    rw [← le_div_iff₀ hden]
    exact min_le_right _ _
  refine ⟨δ, hδ, ?_⟩
  intro X Xlags v hX hXl hv hE hL w hle hsc k hk i hi j hj
  subst hX
  obtain ⟨rows', cols', entry'⟩ := Xlags
  simp only at hXl
  subst hXl
  set Xlags : Data ℝ := ⟨rows', p * X.cols, entry'⟩ with hXl
  obtain ⟨T, hT⟩ := exists_factor (U := nowMat X.cols u) hu (nowMat X.cols w)
  have hself : 2 * squaredErrorDyn X Xlags p u ≤ v * X.cols + δ * v * X.cols := by
    have hG : ∀ a ∈ (Finset.univ : Finset (Fin X.cols)), (∑ r, errors X Xlags p u r a * errors X Xlags p u r a) / X.rows ≤ v + δ * v := by
      intro a _
      have := le_of_abs_le (equal_errors hE a a)
      rw [if_pos rfl] at this
      linarith
    rw [squaredErrorDyn_sumSq, sumSq, Finset.sum_comm, Finset.sum_div]
    simp only [sq]
    refine (Finset.sum_le_card_nsmul _ _ _ hG).trans (le_of_eq ?_)
    rw [Finset.card_univ, Fintype.card_fin, nsmul_eq_mul]
    ring
  obtain ⟨h1, h2⟩ := hclose v hv X.rows (errors X Xlags p u) (lagData X Xlags) (nowMat X.cols w) T (lagMat X.cols (p * X.cols) w) hT
    (fun a b => (equal_errors hE a b).trans (mul_le_mul_of_nonneg_right hδη hv.le))
    (fun a l => (lag_errors hE a l).trans (mul_le_mul_of_nonneg_right hδη hv.le)) (lags_vary hL)
    (by
      have := errors_other (Xlags := Xlags) rfl u w hT
      rw [← this, ← squaredErrorDyn_sumSq]
      have h4 := mul_le_mul_of_nonneg_right hδd hv.le
      have h5 : δ * (X.cols + 2 + 1) * v = δ * v * X.cols + 2 * (δ * v) + δ * v := by ring
      have h6 := mul_pos hδ hv
      linarith) (hsc.trans hδη)
  rcases Nat.eq_zero_or_pos k with rfl | hk0
  · exact h1 ⟨i, hi⟩ ⟨j, hj⟩
  · obtain ⟨m, hm⟩ := lagMat_apply (Xlags := Xlags) rfl (k := k - 1) (by omega) hi hj
    have h3 := h2 m ⟨j, hj⟩
    rw [hm, hm, Nat.sub_add_cancel hk0] at h3
    exact h3

/-- **C131** for `from_numpy_dynamic`: if the errors of linear equations with the weights `u` are nearly uncorrelated with one another and with the
earlier values and nearly of the same size, the optimiser does not miss `u`, no warning is given and the tolerance and the penalties are small,
then the learned edges are exactly those of `u`, with nearly the same weights.  All tolerances are relative to the size of the errors. -/
theorem dynotears_recovers {d p : ℕ} (hd : d ≠ 0) {u : ℕ → ℕ → ℕ → ℝ} {κ ε : ℝ} (hu : AcyclicWeights d (u 0)) (hκ : 0 < κ) (hε : 0 < ε) :
    ∃ δ > 0, ∀ (X Xlags : Data ℝ) (v : ℝ) (minimize : Minimizer ℝ) (fuel : ℕ) (lambdaW lambdaA : ℝ) (a : Params ℝ ℕ) (g : Graph Str ℝ),
      X.cols = d → Xlags.cols = p * d → 0 < v → EqualErrorsDyn X Xlags p u v (δ * v) → LagsVary X Xlags (κ * v) → RespectsBounds minimize →
      dynotears minimize fuel lambdaW lambdaA X Xlags a = .ok (g, false) → a.maxIter ≠ 0 → 0 ≤ lambdaW → 0 ≤ lambdaA →
      lambdaW * absSum d (u 0) + lambdaA * ∑ k ∈ range p, absSum d (u (k + 1)) ≤ δ * v →
      NotWorse (problem lambdaW lambdaA X Xlags) minimize (bounds a.tabu d p) (splitVec d p u) →
      a.hTol ≤ δ → ε ≤ a.wThreshold → (∀ k ≤ p, ∀ i < d, ∀ j < d, u k i j ≠ 0 → a.wThreshold + ε ≤ |u k i j|) →
      (∀ e ∈ g.edges, ∃ k ≤ p, ∃ i < d, ∃ j < d, e.src = lagName (natStr i) k ∧ e.dst = lagName (natStr j) 0 ∧ u k i j ≠ 0 ∧
        |e.weight - u k i j| < ε) ∧
      ∀ k ≤ p, ∀ i < d, ∀ j < d, u k i j ≠ 0 → ∃ e ∈ g.edges, e.src = lagName (natStr i) k ∧ e.dst = lagName (natStr j) 0 := by
  obtain ⟨δ, hδ, hnear⟩ := identified_dyn_near (p := p) hd hu hκ hε
  refine ⟨δ, hδ, fun X Xlags v minimize fuel lambdaW lambdaA a g hX hXl hv hE hL hm h hmax hlW hlA hpen hopt htol hthr hbig => ?_⟩
  subst hX
  obtain ⟨hS, s, hs, hr⟩ := fromNumpyDynamicW_ok.1 h
  obtain ⟨rfl, hwarn⟩ := Prod.mk.inj hr
  have hp : Xlags.cols / X.cols = p := by rw [hXl]; exact Nat.mul_div_cancel _ (Nat.pos_of_ne_zero hd)
  rw [hp] at hs ⊢
  have hG := toGraph_dyn (vec := s.wEst) (thr := a.wThreshold) (p := p) hd
  have hscore : expScore (matW X.cols s.wEst) ≤ a.hTol := WithTop.coe_le_coe.1 ((learnLoop_score hs hmax).1 hwarn.symm)
  have hm0 : matW X.cols (splitVec X.cols p u) = fun i j : Fin X.cols => u 0 i j := by
    funext i j
    rw [matW_eq]
    exact (splitVec_weight _ _ _ (Nat.zero_le _) i.2 j.2).1
  have hbest := learnLoop_best (problem_penalised lambdaW lambdaA hS) hm hs hmax (bounds_zero _ _ _)
    (by rw [hm0]; exact (expScore_eq_zero_iff _).2 hu) hopt
  rw [hp, squaredErrorDyn_congr X Xlags p (v := weightOf X.cols (splitVec X.cols p u)) (w := u)
    fun k hk i hi j hj => (splitVec_weight _ _ _ hk hi hj).1, (splitVec_sums _ _ _).1, (splitVec_sums _ _ _).2] at hbest
  obtain ⟨p1, p2⟩ := penalty_le (learnLoop_inBox hm hs (bounds_zero _ _ _))
  have q1 := mul_nonneg hlW ((absSum_nonneg _ _).trans p1)
  have q2 := mul_nonneg hlA ((Finset.sum_nonneg fun _ _ => absSum_nonneg _ _).trans p2)
  have hW : (fun i j : Fin X.cols => weightOf X.cols s.wEst 0 i j) = matW X.cols s.wEst := by
    funext i j
    rw [matW_eq]
  have hclose := hnear X Xlags v rfl hXl hv hE hL (weightOf X.cols s.wEst) (by linarith) (by rw [hW]; exact hscore.trans htol)
  have hname : ∀ {m : ℕ} {x : Str}, ((List.range X.cols).map natStr)[m]? = some x ↔ m < X.cols ∧ x = natStr m := by
    intro m x
    rw [List.getElem?_map]
    by_cases hm : m < X.cols
    · rw [List.getElem?_range hm]
      simp [hm, eq_comm]
    · rw [List.getElem?_eq_none (by simpa using hm)]
      simp [hm]
  constructor
  · intro e he
    obtain ⟨k, i, j, x, y, hk, hi, hj, h1, h2, rfl⟩ := (hG.edges e).1 he
    obtain ⟨hi', rfl⟩ := hname.1 hi
    obtain ⟨hj', rfl⟩ := hname.1 hj
    have h3 := hclose k hk i hi' j hj'
    refine ⟨k, hk, i, hi', j, hj', rfl, rfl, fun h0 => ?_, h3⟩
    rw [h0, sub_zero] at h3
    linarith
  · intro k hk i hi j hj hne
    have h4 := hbig k hk i hi j hj hne
    have h5 := hclose k hk i hi j hj
    have h6 := abs_sub_abs_le_abs_sub (u k i j) (weightOf X.cols s.wEst k i j)
    rw [abs_sub_comm] at h5
    have h7 : a.wThreshold ≤ |weightOf X.cols s.wEst k i j| := by linarith
    refine ⟨_, (hG.edges _).2 ⟨k, i, j, _, _, hk, hname.2 ⟨hi, rfl⟩, hname.2 ⟨hj, rfl⟩, fun h0 => ?_, h7, rfl⟩, rfl, rfl⟩
    rw [h0, abs_zero] at h7
    linarith

/-- **C131**, convergence: if the optimiser does not miss weights `u`, acyclic within a time step, that fit well enough for the tolerance, and there are
enough iterations, then no warning is given. -/
theorem dynotears_no_warning {minimize : Minimizer ℝ} {fuel : ℕ} {lambdaW lambdaA : ℝ} {X Xlags : Data ℝ} {a : Params ℝ ℕ} {g : Graph Str ℝ} {warned : Bool}
    {u : ℕ → ℕ → ℕ → ℝ} (hm : RespectsBounds minimize) (h : dynotears minimize fuel lambdaW lambdaA X Xlags a = .ok (g, warned))
    (hmax : a.maxIter ≠ 0) (hlW : 0 ≤ lambdaW) (hlA : 0 ≤ lambdaA) (hu : AcyclicWeights X.cols (u 0))
    (hopt : NotWorse (problem lambdaW lambdaA X Xlags) minimize (bounds a.tabu X.cols (Xlags.cols / X.cols))
      (splitVec X.cols (Xlags.cols / X.cols) u)) (ht : 0 ≤ a.hTol)
    (hlim : 2 * errorDyn lambdaW lambdaA X Xlags (Xlags.cols / X.cols) u ≤ 10 ^ 19 * a.hTol ^ 2)
    (hit : 2 * errorDyn lambdaW lambdaA X Xlags (Xlags.cols / X.cols) u ≤ (a.hTol * 4 ^ (a.maxIter - 1)) ^ 2) : warned = false := by
  obtain ⟨hS, s, hs, hr⟩ := fromNumpyDynamicW_ok.1 h
  obtain ⟨-, rfl⟩ := Prod.mk.inj hr
  have hm0 : matW X.cols (splitVec X.cols (Xlags.cols / X.cols) u) = fun i j : Fin X.cols => u 0 i j := by
    funext i j
    rw [matW_eq]
    exact (splitVec_weight _ _ _ (Nat.zero_le _) i.2 j.2).1
  have hF : squaredErrorDyn X Xlags (Xlags.cols / X.cols) (weightOf X.cols (splitVec X.cols (Xlags.cols / X.cols) u)) +
      (lambdaW * ((splitVec X.cols (Xlags.cols / X.cols) u).take (2 * X.cols ^ 2)).sum +
        lambdaA * ((splitVec X.cols (Xlags.cols / X.cols) u).drop (2 * X.cols ^ 2)).sum) =
      errorDyn lambdaW lambdaA X Xlags (Xlags.cols / X.cols) u := by
    rw [(splitVec_sums _ _ _).1, (splitVec_sums _ _ _).2, errorDyn]
    congr 1
    exact squaredErrorDyn_congr X Xlags _ fun k hk i hi j hj => (splitVec_weight _ _ _ hk hi hj).1
  exact (learnLoop_converges (c := 0) (problem_penalised lambdaW lambdaA hS) hm hs hmax (bounds_zero _ _ _)
    (by rw [hm0]; exact (expScore_eq_zero_iff _).2 hu) hopt
    (fun vec hv => by
      obtain ⟨p1, p2⟩ := penalty_le hv
      have q1 := le_trans (absSum_nonneg _ _) p1
      have q2 := le_trans (Finset.sum_nonneg fun _ _ => absSum_nonneg _ _) p2
      exact add_nonneg (squaredErrorDyn_nonneg _ _ _ _) (add_nonneg (mul_nonneg hlW q1) (mul_nonneg hlA q2))) ht
    (by rw [hF, sub_zero]; exact hlim) (by rw [hF, sub_zero]; exact hit)).2

end Verif.Dynotears
