import Verif.Notears.Objective

/-!
# The objective and the learned graph: C71 (lasso) and C72
-/

namespace Verif.Notears

open Matrix Finset

theorem matSplit_append {d : ℕ} (v1 v2 : Fin (d * d) → ℝ) (i j : Fin d) :
    matSplit d (List.ofFn v1 ++ List.ofFn v2) i j =
      v1 ⟨i * d + j, cell_lt i j⟩ - v2 ⟨i * d + j, cell_lt i j⟩ := by
  unfold matSplit splitMatrix
  have hl : (List.ofFn v1).length = d ^ 2 := by rw [List.length_ofFn, sq]
  rw [List.take_left' hl, List.drop_left' hl]
  unfold reshape
  rw [getD_ofFn v1 (cell_lt i j), getD_ofFn v2 (cell_lt i j)]

/-- **C71** for `from_numpy_lasso`. -/
theorem problemLasso_gradient (beta : ℝ) (X : Data ℝ) (rho alpha : ℝ) :
    IsGradient (2 * X.cols * X.cols) ((problemLasso beta X).func rho alpha)
      ((problemLasso beta X).grad rho alpha) := by
  have hN : 2 * X.cols * X.cols = X.cols * X.cols + X.cols * X.cols := by ring
  rw [hN]
  set d := X.cols with hd
  let G : (Fin (d * d + d * d) → ℝ) → Fin (d * d) → ℝ := fun v k =>
    objGrad X.matrix rho alpha (matSplit d (List.ofFn v)) k.divNat k.modNat
  have hsplit : ∀ v : Fin (d * d + d * d) → ℝ, List.ofFn v =
      List.ofFn (fun k => v (Fin.castAdd _ k)) ++ List.ofFn (fun k => v (Fin.natAdd _ k)) :=
    fun v => List.ofFn_add
  refine ⟨fun v => objective X.matrix rho alpha (matSplit d (List.ofFn v)) + beta * ∑ k, v k,
    fun v => Fin.append (fun k => G v k + beta) (fun k => -G v k + beta), ?_, ?_, ?_⟩
  · intro v
    simp only [problemLasso, List.sum_ofFn]
    rfl
  · intro v
    rw [List.ofFn_fin_append]
    simp only [problemLasso, flatten, List.map_ofFn]
    rfl
  · intro v
    have h := hasFDerivAt_objective X.matrix rho alpha
      (φ := fun v : Fin (d * d + d * d) → ℝ => matSplit d (List.ofFn v))
      (φ' := fun i j => ContinuousLinearMap.proj (Fin.castAdd _ ⟨i * d + j, cell_lt i j⟩) -
        ContinuousLinearMap.proj (Fin.natAdd _ ⟨i * d + j, cell_lt i j⟩)) (x := v) (by
        intro i j
        simp only [hsplit, matSplit_append]
        exact (ContinuousLinearMap.proj (R := ℝ) (φ := fun _ => ℝ) (Fin.castAdd _ ⟨i * d + j, cell_lt i j⟩ : Fin (d * d + d * d)) -
          ContinuousLinearMap.proj (R := ℝ) (φ := fun _ => ℝ)
            (Fin.natAdd _ ⟨i * d + j, cell_lt i j⟩ : Fin (d * d + d * d))).hasFDerivAt)
    have hs : HasFDerivAt (fun v : Fin (d * d + d * d) → ℝ => ∑ k, v k)
        (∑ k, ContinuousLinearMap.proj (R := ℝ) (φ := fun _ : Fin (d * d + d * d) => ℝ) k) v :=
      HasFDerivAt.fun_sum fun k _ => (ContinuousLinearMap.proj (R := ℝ) (φ := fun _ => ℝ) k).hasFDerivAt
    refine (h.add (hs.const_mul beta)).congr_fderiv ?_
    ext u
    simp only [ContinuousLinearMap.add_apply, ContinuousLinearMap.sub_apply, ContinuousLinearMap.sum_apply,
      ContinuousLinearMap.smul_apply, ContinuousLinearMap.proj_apply, smul_eq_mul, Fin.sum_univ_add,
      Fin.append_left, Fin.append_right]
    have h1 := sum_flat (d := d) (fun i j k =>
      objGrad X.matrix rho alpha (matSplit d (List.ofFn v)) i j *
        (List.ofFn fun k => u (Fin.castAdd (d * d) k)).getD k 0)
    have h2 := sum_flat (d := d) (fun i j k =>
      objGrad X.matrix rho alpha (matSplit d (List.ofFn v)) i j *
        (List.ofFn fun k => u (Fin.natAdd (d * d) k)).getD k 0)
    simp only [getD_ofFn _ (Fin.isLt _), getD_ofFn _ (cell_lt _ _)] at h1 h2
    simp only [mul_sub, Finset.sum_sub_distrib]
    rw [← h1, ← h2]
    simp only [G, add_mul, Finset.sum_add_distrib, neg_mul, Finset.sum_neg_distrib, ← Finset.mul_sum]
    ring

theorem problem_finite (X : Data ℝ) : FiniteScores (problem X) := fun _ => WithTop.coe_ne_top

theorem problemLasso_finite (beta : ℝ) (X : Data ℝ) : FiniteScores (problemLasso beta X) :=
  fun _ => WithTop.coe_ne_top

/-- With exact arithmetic, `from_numpy` always returns (C42, for the objective used). -/
theorem notears_total (minimize : Minimizer ℝ) (X : Data ℝ) (a : Params ℝ ℕ) :
    (X.finite = true ∧ X.rows * X.cols ≠ 0 → ∃ g, ∀ fuel, 21 ≤ fuel → notears minimize fuel X a = .ok g) := by
  intro hX
  obtain ⟨g, hg⟩ := (fromNumpy_total (minimize := minimize) (problem_finite X) (le_refl 21) X a).1 hX
  refine ⟨g, fun fuel hf => ?_⟩
  obtain ⟨h1, h2, s, hs, rfl⟩ := fromNumpy_ok.1 hg
  exact fromNumpy_ok.2 ⟨h1, h2, s, learnLoop_fuel hs hf, rfl⟩

/-! ### When the learned graph is acyclic -/

theorem prod_strict {x : ℕ → ℝ} {c : ℝ} (hc : 0 ≤ c) {k : ℕ} (hk : 0 < k) (h : ∀ t < k, c < |x t|) :
    c ^ (2 * k) < ∏ t ∈ Finset.range k, x t ^ 2 := by
  have hsq : ∀ t < k, c ^ 2 < x t ^ 2 := by
    intro t ht
    rw [← sq_abs (x t)]
    exact pow_lt_pow_left₀ (h t ht) hc (by norm_num)
  clear h
  induction k with
  | zero => omega
  | succ k ih =>
    rw [Finset.prod_range_succ, Nat.mul_succ, pow_add]
    rcases Nat.eq_zero_or_pos k with rfl | hk
    · simpa using hsq 0 (by omega)
    · have := ih hk fun t ht => hsq t (by omega)
      have h2 := hsq k (by omega)
      exact mul_lt_mul'' this h2 (by positivity) (by positivity)

theorem prod_le {x : ℕ → ℝ} {c : ℝ} (hc : 0 ≤ c) {k : ℕ} (h : ∀ t < k, c ≤ |x t|) :
    c ^ (2 * k) ≤ ∏ t ∈ Finset.range k, x t ^ 2 := by
  induction k with
  | zero => simp
  | succ k ih =>
    rw [Finset.prod_range_succ, Nat.mul_succ, pow_add]
    have := ih fun t ht => h t (by omega)
    have h2 : c ^ 2 ≤ x k ^ 2 := by
      rw [← sq_abs (x k)]
      exact pow_le_pow_left₀ hc (h k (by omega)) 2
    exact mul_le_mul this h2 (by positivity) (Finset.prod_nonneg fun _ _ => sq_nonneg _)

/-- A graph all of whose edges are strong entries of a matrix with a small score. -/
theorem acyclic_of_score {d : ℕ} {g : Graph ℕ ℝ} (W : Matrix (Fin d) (Fin d) ℝ) (R : Fin d → Fin d → Prop)
    (hg : ∀ e ∈ g.edges, ∃ (h1 : e.src < d) (h2 : e.dst < d), R ⟨_, h1⟩ ⟨_, h2⟩)
    (hR : ∀ k f, 0 < k → k ≤ d → Walk R k f →
      ((k - 1).factorial : ℝ) * expScore W < ∏ t ∈ Finset.range k, (W (f t) (f (t + 1))) ^ 2) :
    g.Acyclic := by
  intro n hn
  have key : ∀ {u v : ℕ}, Relation.TransGen (fun u v => ∃ e ∈ g.edges, e.src = u ∧ e.dst = v) u v →
      ∃ (h1 : u < d) (h2 : v < d), Relation.TransGen R ⟨u, h1⟩ ⟨v, h2⟩ := by
    intro u v h
    induction h with
    | single h =>
      obtain ⟨e, he, rfl, rfl⟩ := h
      obtain ⟨h1, h2, h3⟩ := hg e he
      exact ⟨h1, h2, .single h3⟩
    | tail _ h ih =>
      obtain ⟨e, he, rfl, rfl⟩ := h
      obtain ⟨h1, h2, h3⟩ := hg e he
      obtain ⟨k1, k2, k3⟩ := ih
      exact ⟨k1, h2, k3.tail h3⟩
  obtain ⟨h1, _, h3⟩ := key hn
  obtain ⟨k, f, hk, hc, hw, hinj⟩ := simple_cycle h3
  have hcard := card_of_injOn hinj
  rw [Fintype.card_fin] at hcard
  have := hR k f hk hcard hw
  have h2 := cycle_weight_le W hk hc hinj
  linarith

theorem warns_false {P : Problem ℝ} {minimize : Minimizer ℝ} {fuel : ℕ} {X : Data ℝ} {a : Params ℝ ℕ}
    {s : St ℝ} (hs : learnLoop P minimize ((cells X.cols).map (bound a.tabu (none, none)))
      (X.cols * X.cols) a.maxIter a.hTol fuel = some s)
    (hw : fromNumpyWarns P minimize fuel X a = false) : s.warned = false := by
  unfold fromNumpyWarns at hw
  rw [hs] at hw
  exact hw

theorem warnsLasso_false {P : Problem ℝ} {minimize : Minimizer ℝ} {fuel : ℕ} {X : Data ℝ}
    {a : Params ℝ ℕ} {s : St ℝ} (hs : learnLoop P minimize ((cells X.cols).map (bound a.tabu (some 0, none)) ++
      (cells X.cols).map (bound a.tabu (some 0, none))) (2 * X.cols * X.cols) a.maxIter a.hTol fuel = some s)
    (hw : fromNumpyLassoWarns P minimize fuel X a = false) : s.warned = false := by
  unfold fromNumpyLassoWarns at hw
  rw [hs] at hw
  exact hw

/-- **C72**: if no warning is given and the threshold is large enough for the tolerance, the learned graph
has no cycle. -/
theorem notears_acyclic {minimize : Minimizer ℝ} {fuel : ℕ} {X : Data ℝ} {a : Params ℝ ℕ}
    {g : Graph ℕ ℝ} (h : notears minimize fuel X a = .ok g) (hmax : a.maxIter ≠ 0)
    (hw : fromNumpyWarns (problem X) minimize fuel X a = false) (hthr : 0 ≤ a.wThreshold)
    (hk : ∀ k, 0 < k → k ≤ X.cols → ((k - 1).factorial : ℝ) * a.hTol ≤ a.wThreshold ^ (2 * k)) :
    g.Acyclic := by
  obtain ⟨-, -, s, hs, rfl⟩ := fromNumpy_ok.1 h
  have hscore : expScore (mat X.cols s.wEst) ≤ a.hTol :=
    WithTop.coe_le_coe.1 ((learnLoop_score hs hmax).1 (warns_false hs hw))
  refine acyclic_of_score (mat X.cols s.wEst) (fun i j => a.wThreshold < |mat X.cols s.wEst i j|) ?_ ?_
  · intro e he
    obtain ⟨h1, h2, h3, -⟩ := mem_ofMatrix.1 he
    refine ⟨h1, h2, ?_⟩
    rw [reshape_map _ _ _ (cutPlain_zero _)] at h3
    exact (cutPlain_ne_zero.1 h3).2
  · intro k f h0 hd hwalk
    calc ((k - 1).factorial : ℝ) * expScore (mat X.cols s.wEst)
        ≤ ((k - 1).factorial : ℝ) * a.hTol := mul_le_mul_of_nonneg_left hscore (by positivity)
      _ ≤ a.wThreshold ^ (2 * k) := hk k h0 hd
      _ < _ := prod_strict hthr h0 hwalk

/-- **C72** for `from_numpy_lasso`. -/
theorem notearsLasso_acyclic {minimize : Minimizer ℝ} {fuel : ℕ} {beta : ℝ} {X : Data ℝ}
    {a : Params ℝ ℕ} {g : Graph ℕ ℝ} (h : notearsLasso minimize fuel beta X a = .ok g)
    (hmax : a.maxIter ≠ 0) (hw : fromNumpyLassoWarns (problemLasso beta X) minimize fuel X a = false)
    (hthr : 0 ≤ a.wThreshold)
    (hk : ∀ k, 0 < k → k ≤ X.cols → ((k - 1).factorial : ℝ) * a.hTol < a.wThreshold ^ (2 * k)) :
    g.Acyclic := by
  obtain ⟨-, -, s, hs, rfl⟩ := fromNumpyLasso_ok.1 h
  have hscore : expScore (matSplit X.cols s.wEst) ≤ a.hTol :=
    WithTop.coe_le_coe.1 ((learnLoop_score hs hmax).1 (warnsLasso_false hs hw))
  refine acyclic_of_score (matSplit X.cols s.wEst)
    (fun i j => a.wThreshold ≤ |matSplit X.cols s.wEst i j|) ?_ ?_
  · intro e he
    obtain ⟨h1, h2, h3, -⟩ := mem_ofMatrix.1 he
    refine ⟨h1, h2, ?_⟩
    by_contra hn
    push Not at hn
    apply h3
    unfold cutStrict
    rw [if_pos]
    exact hn
  · intro k f h0 hd hwalk
    calc ((k - 1).factorial : ℝ) * expScore (matSplit X.cols s.wEst)
        ≤ ((k - 1).factorial : ℝ) * a.hTol := mul_le_mul_of_nonneg_left hscore (by positivity)
      _ < a.wThreshold ^ (2 * k) := hk k h0 hd
      _ ≤ _ := prod_le hthr hwalk

/-- The warning is given exactly if the score of the weights found is above the tolerance. -/
theorem notears_warns_iff {minimize : Minimizer ℝ} {fuel : ℕ} {X : Data ℝ} {a : Params ℝ ℕ}
    {g : Graph ℕ ℝ} (h : notears minimize fuel X a = .ok g) (hmax : a.maxIter ≠ 0) :
    ∃ w : List ℝ, (fromNumpyWarns (problem X) minimize fuel X a = true ↔ a.hTol < expScore (mat X.cols w)) ∧
      (w = List.replicate (X.cols * X.cols) 0 ∨
        Returned (problem X) minimize ((cells X.cols).map (bound a.tabu (none, none))) w) ∧
      ∀ i j x o, (⟨i, j, x, o⟩ : Edge ℕ ℝ) ∈ g.edges ↔ i < X.cols ∧ j < X.cols ∧
        w.getD (i * X.cols + j) 0 = x ∧ x ≠ 0 ∧ a.wThreshold < |x| ∧ o = "unknown" := by
  obtain ⟨-, -, s, hs, rfl⟩ := fromNumpy_ok.1 h
  refine ⟨s.wEst, ?_, learnLoop_returned hs, ?_⟩
  · have h1 := learnLoop_score hs hmax
    have h2 : fromNumpyWarns (problem X) minimize fuel X a = s.warned := by
      unfold fromNumpyWarns
      rw [hs]
    rw [h2, ← not_le]
    have h3 : ((problem X).score s.wEst ≤ (a.hTol : WithTop ℝ)) ↔ expScore (mat X.cols s.wEst) ≤ a.hTol :=
      WithTop.coe_le_coe
    rw [← h3, ← h1]
    simp
  · intro i j x o
    rw [mem_ofMatrix, reshape_map _ _ _ (cutPlain_zero _)]
    simp only
    change _ ↔ i < X.cols ∧ j < X.cols ∧ reshape X.cols s.wEst i j = x ∧ _
    constructor
    · rintro ⟨h1, h2, h3, h4, h5⟩
      have h6 := cutPlain_ne_zero.1 h3
      rw [cutPlain_eq h3] at h4
      subst h4
      exact ⟨h1, h2, rfl, h6.1, h6.2, h5⟩
    · rintro ⟨h1, h2, rfl, h4, h5, h6⟩
      have h3 := cutPlain_ne_zero.2 ⟨h4, h5⟩
      exact ⟨h1, h2, h3, (cutPlain_eq h3).symm, h6⟩

/-- The same for `from_numpy_lasso`; the weight of an edge is the difference of its two entries. -/
theorem notearsLasso_warns_iff {minimize : Minimizer ℝ} {fuel : ℕ} {beta : ℝ} {X : Data ℝ} {a : Params ℝ ℕ}
    {g : Graph ℕ ℝ} (h : notearsLasso minimize fuel beta X a = .ok g) (hmax : a.maxIter ≠ 0) :
    ∃ w : List ℝ, (fromNumpyLassoWarns (problemLasso beta X) minimize fuel X a = true ↔
        a.hTol < expScore fun i j : Fin X.cols =>
          w.getD (i * X.cols + j) 0 - w.getD (X.cols ^ 2 + (i * X.cols + j)) 0) ∧
      ∀ i j x o, (⟨i, j, x, o⟩ : Edge ℕ ℝ) ∈ g.edges ↔ i < X.cols ∧ j < X.cols ∧
        w.getD (i * X.cols + j) 0 - w.getD (X.cols ^ 2 + (i * X.cols + j)) 0 = x ∧ x ≠ 0 ∧
        a.wThreshold ≤ |x| ∧ o = "unknown" := by
  obtain ⟨-, -, s, hs, rfl⟩ := fromNumpyLasso_ok.1 h
  have hsplit : ∀ i j, i < X.cols → j < X.cols → splitMatrix X.cols s.wEst i j =
      s.wEst.getD (i * X.cols + j) 0 - s.wEst.getD (X.cols ^ 2 + (i * X.cols + j)) 0 := by
    intro i j hi hj
    have := cell_lt ⟨i, hi⟩ ⟨j, hj⟩
    unfold splitMatrix reshape
    congr 1
    · rw [List.getD_eq_getElem?_getD, List.getD_eq_getElem?_getD, List.getElem?_take_of_lt (by rw [sq]; exact this)]
    · rw [List.getD_eq_getElem?_getD, List.getD_eq_getElem?_getD, List.getElem?_drop]
  refine ⟨s.wEst, ?_, ?_⟩
  · have h1 := learnLoop_score hs hmax
    have h2 : fromNumpyLassoWarns (problemLasso beta X) minimize fuel X a = s.warned := by
      unfold fromNumpyLassoWarns
      rw [hs]
    have hm : matSplit X.cols s.wEst = fun i j : Fin X.cols =>
        s.wEst.getD (i * X.cols + j) 0 - s.wEst.getD (X.cols ^ 2 + (i * X.cols + j)) 0 := by
      ext i j
      exact hsplit i j i.2 j.2
    rw [h2, ← not_le]
    have h3 : ((problemLasso beta X).score s.wEst ≤ (a.hTol : WithTop ℝ)) ↔
        expScore (matSplit X.cols s.wEst) ≤ a.hTol := WithTop.coe_le_coe
    rw [← hm, ← h3, ← h1]
    simp
  · intro i j x o
    rw [mem_ofMatrix]
    simp only
    constructor
    · rintro ⟨h1, h2, h3, h4, h5⟩
      have h6 := cutStrict_ne_zero.1 h3
      rw [cutStrict_eq h3, hsplit i j h1 h2] at h4
      rw [hsplit i j h1 h2] at h6
      subst h4
      exact ⟨h1, h2, rfl, h6.1, h6.2, h5⟩
    · rintro ⟨h1, h2, rfl, h4, h5, h6⟩
      rw [← hsplit i j h1 h2] at h4 h5 ⊢
      have h3 := cutStrict_ne_zero.2 ⟨h4, h5⟩
      exact ⟨h1, h2, h3, (cutStrict_eq h3).symm, h6⟩

end Verif.Notears
