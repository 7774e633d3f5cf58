import Verif.Notears.Optimal
import Verif.Notears.PropsObjective

/-!
# C86: with a good optimiser the learned weights fit at least as well as every acyclic graph
-/

namespace Verif.Notears

open Matrix Finset

/-! ### Specification -/

/-- The value in row `i` and column `j`. -/
noncomputable def Data.val (X : Data ℝ) (i j : ℕ) : ℝ := (X.entry i j).getD 0

/-- Half the mean, over the rows, of the squared distance between the row and its linear prediction from itself with the
weights `W`. -/
noncomputable def squaredError (X : Data ℝ) (W : ℕ → ℕ → ℝ) : ℝ :=
  (∑ i ∈ range X.rows, ∑ j ∈ range X.cols, (X.val i j - ∑ k ∈ range X.cols, X.val i k * W k j) ^ 2) / (2 * X.rows)

/-- The mean, over the rows, of the squared length of the row. -/
noncomputable def meanSquare (X : Data ℝ) : ℝ :=
  (∑ i ∈ range X.rows, ∑ j ∈ range X.cols, X.val i j ^ 2) / X.rows

/-- The sum of the absolute values of the weights. -/
noncomputable def absSum (d : ℕ) (W : ℕ → ℕ → ℝ) : ℝ := ∑ i ∈ range d, ∑ j ∈ range d, |W i j|

/-- The graph with an edge wherever the weight is not zero has no directed cycle. -/
def AcyclicWeights (d : ℕ) (W : ℕ → ℕ → ℝ) : Prop := NoCycle fun i j : Fin d => W i j

/-- The weight of the edge from `i` to `j`, 0 if there is none. -/
def Graph.weight (g : Graph ℕ ℝ) (i j : ℕ) : ℝ :=
  ((g.edges.find? fun e => e.src = i ∧ e.dst = j).map fun e => e.weight).getD 0

/-- The weights as a vector, row by row. -/
def rowMajor (d : ℕ) (W : ℕ → ℕ → ℝ) : List ℝ := (cells d).map fun c => W c.1 c.2

/-- The optimiser finds minima: every point returned (for a positive penalty and a nonnegative multiplier) is not worse than any
point within the bounds. -/
def FindsMinima (P : Problem ℝ) (minimize : Minimizer ℝ) (bnds : List (Bound ℝ)) : Prop :=
  ∀ w₀, InBox bnds w₀ → NotWorse P minimize bnds w₀

/-- The bounds of `from_numpy`. -/
noncomputable def box (d : ℕ) (t : Tabu ℕ) : List (Bound ℝ) := (cells d).map (bound t (none, none))

/-- The bounds of `from_numpy_lasso`. -/
noncomputable def boxLasso (d : ℕ) (t : Tabu ℕ) : List (Bound ℝ) :=
  (cells d).map (bound t (some 0, none)) ++ (cells d).map (bound t (some 0, none))

/-! ### Lemmas -/

theorem squaredError_eq (X : Data ℝ) (W : ℕ → ℕ → ℝ) : squaredError X W = loss X.matrix fun i j : Fin X.cols => W i j := by
  unfold squaredError loss
  rw [Finset.sum_range, div_eq_inv_mul]
  congr 1
  · rw [mul_inv, div_eq_mul_inv]
    norm_num
  · refine Finset.sum_congr rfl fun i _ => ?_
    rw [Finset.sum_range]
    refine Finset.sum_congr rfl fun j _ => ?_
    congr 1
    have : (X.matrix * (1 - Matrix.of fun i j : Fin X.cols => W i j) : Matrix (Fin X.rows) (Fin X.cols) ℝ) i j =
        X.matrix i j - ∑ k : Fin X.cols, X.matrix i k * W k j := by
      rw [Matrix.mul_sub, Matrix.mul_one, Matrix.sub_apply, Matrix.mul_apply]
      rfl
    rw [Finset.sum_range]
    exact this.symm

theorem squaredError_nonneg (X : Data ℝ) (W : ℕ → ℕ → ℝ) : 0 ≤ squaredError X W :=
  div_nonneg (Finset.sum_nonneg fun _ _ => Finset.sum_nonneg fun _ _ => sq_nonneg _) (by positivity)

theorem squaredError_zero (X : Data ℝ) : 2 * squaredError X (fun _ _ => 0) = meanSquare X := by
  unfold squaredError meanSquare
  simp only [mul_zero, Finset.sum_const_zero, sub_zero]
  by_cases h : (X.rows : ℝ) = 0
  · rw [h]; simp
  · field_simp

theorem rowMajor_reshape (d : ℕ) (V : ℕ → ℕ → ℝ) {i j : ℕ} (hi : i < d) (hj : j < d) : reshape d (rowMajor d V) i j = V i j := by
  rw [reshape, rowMajor, List.getD_eq_getElem?_getD, List.getElem?_map, cells_get hi hj]
  rfl

theorem squaredError_congr (X : Data ℝ) {W V : ℕ → ℕ → ℝ} (h : ∀ i < X.cols, ∀ j < X.cols, W i j = V i j) :
    squaredError X W = squaredError X V := by
  rw [squaredError_eq, squaredError_eq]
  congr 1
  funext i j
  exact h i i.2 j j.2

/-- What `from_numpy` optimises. -/
theorem problem_penalised (X : Data ℝ) :
    Penalised (problem X) (fun w => squaredError X (reshape X.cols w)) fun w => expScore (mat X.cols w) where
  func rho alpha w := by
    change ((objective X.matrix rho alpha (mat X.cols w) : ℝ) : WithTop ℝ) = _
    congr 1
    rw [squaredError_eq]
    unfold objective
    simp only
    rw [show (0.5 : ℝ) = 1 / 2 by norm_num, sq]
    change loss X.matrix (mat X.cols w) + _ + _ = loss X.matrix (mat X.cols w) + _
    ring
  score w := rfl
  nonneg w := expScore_nonneg _

theorem box_zero (d : ℕ) (t : Tabu ℕ) : InBox (box d t) (List.replicate (d * d) 0) := by
  rw [← cells_length]
  exact inBox_zero (by simp) (by simp) _

theorem box_permitted {d : ℕ} {t : Tabu ℕ} {V : ℕ → ℕ → ℝ} (hV : ∀ i < d, ∀ j < d, V i j ≠ 0 → Permitted t i j) :
    InBox (box d t) (rowMajor d V) := by
  rw [box, rowMajor, InBox, List.forall₂_map_left_iff, List.forall₂_map_right_iff, List.forall₂_same]
  intro c hc
  obtain ⟨h1, h2⟩ := mem_cells.1 (show (c.1, c.2) ∈ cells d from hc)
  by_cases hp : Permitted t c.1 c.2
  · rw [show bound t ((none, none) : Bound ℝ) c = (none, none) from bound_free hp]
    simp
  · rw [show bound t ((none, none) : Bound ℝ) c = (some 0, some 0) from bound_zero hp,
      show V c.1 c.2 = 0 from by by_contra hne; exact hp (hV _ h1 _ h2 hne)]
    simp

theorem acyclic_zero (d : ℕ) : AcyclicWeights d fun _ _ => 0 := by
  have : ∀ i j : Fin d, ¬ Relation.TransGen (fun _ _ : Fin d => (0 : ℝ) ≠ 0) i j := by
    intro i j h
    induction h with
    | single h => exact h rfl
    | tail _ h _ => exact h rfl
  exact fun i => this i i

theorem mat_rowMajor (d : ℕ) (V : ℕ → ℕ → ℝ) : mat d (rowMajor d V) = fun i j : Fin d => V i j := by
  funext i j
  exact rowMajor_reshape d V i.2 j.2

theorem mat_zero (d n : ℕ) : mat d (List.replicate n 0) = fun _ _ : Fin d => 0 := by
  funext i j
  simp only [mat, reshape, List.getD_eq_getElem?_getD, List.getElem?_replicate]
  split <;> rfl

theorem weight_eq {g : Graph ℕ ℝ} {i j : ℕ} {w : ℝ}
    (h : ∀ x o, (⟨i, j, x, o⟩ : Edge ℕ ℝ) ∈ g.edges ↔ w = x ∧ x ≠ 0 ∧ o = "unknown") : g.weight i j = w := by
  unfold Graph.weight
  cases hf : g.edges.find? fun e => e.src = i ∧ e.dst = j with
  | none =>
    by_contra hne
    have : w ≠ 0 := fun h0 => hne (by rw [h0]; rfl)
    have hm := (h w "unknown").2 ⟨rfl, this, rfl⟩
    have := List.find?_eq_none.1 hf _ hm
    simp at this
  | some e =>
    have h1 := List.mem_of_find?_eq_some hf
    have h2 := List.find?_some hf
    obtain ⟨u, v, x, o⟩ := e
    simp only [decide_eq_true_eq] at h2
    obtain ⟨rfl, rfl⟩ := h2
    exact ((h x o).1 h1).1.symm

/-! ### `from_numpy` -/

section
variable {minimize : Minimizer ℝ} {fuel : ℕ} {X : Data ℝ} {a : Params ℝ ℕ} {g : Graph ℕ ℝ}

/-- **C86** for `from_numpy`: the edges are the entries above the threshold of weights `W` that fit the data at least as well as all
acyclic weights `V` that the optimiser, whenever called, does not miss. -/
theorem notears_best (hm : RespectsBounds minimize) (h : notears minimize fuel X a = .ok g) (hmax : a.maxIter ≠ 0) :
    ∃ W : ℕ → ℕ → ℝ, (∀ i j x o, (⟨i, j, x, o⟩ : Edge ℕ ℝ) ∈ g.edges ↔ i < X.cols ∧ j < X.cols ∧ W i j = x ∧ x ≠ 0 ∧
        a.wThreshold < |x| ∧ o = "unknown") ∧
      ∀ V, AcyclicWeights X.cols V → NotWorse (problem X) minimize (box X.cols a.tabu) (rowMajor X.cols V) →
        squaredError X W ≤ squaredError X V := by
  obtain ⟨-, -, s, hs, rfl⟩ := fromNumpy_ok.1 h
  refine ⟨reshape X.cols s.wEst, ?_, ?_⟩
  · intro i j x o
    rw [mem_ofMatrix, reshape_map _ _ _ (cutPlain_zero _)]
    simp only
    constructor
    · rintro ⟨h1, h2, h3, h4, h5⟩
      have h6 := cutPlain_ne_zero.1 h3
      rw [cutPlain_eq h3] at h4
      subst h4
      exact ⟨h1, h2, rfl, h6.1, h6.2, h5⟩
    · rintro ⟨h1, h2, rfl, h4, h5, h6⟩
      have h3 := cutPlain_ne_zero.2 ⟨h4, h5⟩
      exact ⟨h1, h2, h3, (cutPlain_eq h3).symm, h6⟩
  · intro V hV hw
    have := learnLoop_best (problem_penalised X) hm hs hmax (box_zero _ _)
      (by rw [mat_rowMajor]; exact (expScore_eq_zero_iff _).2 hV) hw
    rw [squaredError_congr X (V := V) fun i hi j hj => rowMajor_reshape _ V hi hj] at this
    exact this

/-- **C86** for `from_numpy`: an optimiser that finds minima and a threshold of 0 give a graph whose weights fit the data at least
as well as those of every acyclic graph without excluded edges. -/
theorem notears_minimum (hm : RespectsBounds minimize) (h : notears minimize fuel X a = .ok g) (hmax : a.maxIter ≠ 0)
    (hopt : FindsMinima (problem X) minimize (box X.cols a.tabu)) (hthr : a.wThreshold = 0) (V : ℕ → ℕ → ℝ)
    (hac : AcyclicWeights X.cols V) (hper : ∀ i < X.cols, ∀ j < X.cols, V i j ≠ 0 → Permitted a.tabu i j) :
    squaredError X g.weight ≤ squaredError X V := by
  obtain ⟨W, h1, h2⟩ := notears_best hm h hmax
  rw [squaredError_congr X fun i hi j hj => weight_eq (fun x o => (h1 i j x o).trans ⟨fun e => ⟨e.2.2.1, e.2.2.2.1, e.2.2.2.2.2⟩,
    fun e => ⟨hi, hj, e.1, e.2.1, by rw [hthr]; exact abs_pos.2 e.2.1, e.2.2⟩⟩)]
  exact h2 V hac (hopt _ (box_permitted hper))

/-- **C86** for `from_numpy`, convergence: if no call of the optimiser is worse than the empty graph, the mean square of the data is
not too large for the tolerance and there are enough iterations, then there is no warning; with a suitable threshold the graph is
acyclic. -/
theorem notears_converges (hm : RespectsBounds minimize) (h : notears minimize fuel X a = .ok g) (hmax : a.maxIter ≠ 0)
    (hzero : NotWorse (problem X) minimize (box X.cols a.tabu) (rowMajor X.cols fun _ _ => 0)) (ht : 0 ≤ a.hTol)
    (hlim : meanSquare X ≤ 10 ^ 19 * a.hTol ^ 2) (hit : meanSquare X ≤ (a.hTol * 4 ^ (a.maxIter - 1)) ^ 2) :
    fromNumpyWarns (problem X) minimize fuel X a = false ∧
    (0 ≤ a.wThreshold → (∀ k, 0 < k → k ≤ X.cols → ((k - 1).factorial : ℝ) * a.hTol ≤ a.wThreshold ^ (2 * k)) → g.Acyclic) := by
  have h' := h
  obtain ⟨-, -, s, hs, -⟩ := fromNumpy_ok.1 h'
  have hF : squaredError X (reshape X.cols (rowMajor X.cols fun _ _ => 0)) = squaredError X fun _ _ => 0 :=
    squaredError_congr X fun i hi j hj => rowMajor_reshape _ _ hi hj
  have hc := learnLoop_converges (c := 0) (problem_penalised X) hm hs hmax (box_zero _ _)
    (by rw [mat_rowMajor]; exact (expScore_eq_zero_iff _).2 (acyclic_zero _)) hzero
    (fun w _ => squaredError_nonneg _ _) ht (by rw [hF, sub_zero, squaredError_zero]; exact hlim)
    (by rw [hF, sub_zero, squaredError_zero]; exact hit)
  have hw : fromNumpyWarns (problem X) minimize fuel X a = false := by
    unfold fromNumpyWarns
    rw [hs]
    exact hc.2
  exact ⟨hw, fun h1 h2 => notears_acyclic h hmax hw h1 h2⟩

end

/-! ### `from_numpy_lasso` -/

theorem absSum_eq (d : ℕ) (W : ℕ → ℕ → ℝ) : absSum d W = ((cells d).map fun c => |W c.1 c.2|).sum := by
  unfold absSum cells
  rw [List.map_flatMap, List.flatMap_def, List.sum_flatten, List.map_map]
  simp only [List.map_map, Function.comp_def]
  rfl

/-- The lasso objective: squared error plus `beta` times the sum of the absolute values. -/
noncomputable def lassoError (beta : ℝ) (X : Data ℝ) (W : ℕ → ℕ → ℝ) : ℝ := squaredError X W + beta * absSum X.cols W

theorem problemLasso_penalised (beta : ℝ) (X : Data ℝ) :
    Penalised (problemLasso beta X) (fun w => squaredError X (splitMatrix X.cols w) + beta * w.sum)
      fun w => expScore (matSplit X.cols w) where
  func rho alpha w := by
    change ((objective X.matrix rho alpha (matSplit X.cols w) + beta * w.sum : ℝ) : WithTop ℝ) = _
    congr 1
    rw [squaredError_eq]
    unfold objective
    simp only
    rw [show (0.5 : ℝ) = 1 / 2 by norm_num, sq]
    change loss X.matrix (matSplit X.cols w) + _ + _ + _ = loss X.matrix (matSplit X.cols w) + _ + _
    ring
  score w := rfl
  nonneg w := expScore_nonneg _

theorem boxLasso_zero (d : ℕ) (t : Tabu ℕ) : InBox (boxLasso d t) (List.replicate (2 * d * d) 0) := by
  have h0 : InBox ((cells d).map (bound t (some (0 : ℝ), none))) (List.replicate (cells d).length 0) :=
    inBox_zero (by simp) (by simp) _
  rw [show 2 * d * d = (cells d).length + (cells d).length by rw [cells_length, Nat.mul_assoc]; omega, List.replicate_add]
  exact List.rel_append h0 h0

theorem sum_nonneg_of_box {d : ℕ} {t : Tabu ℕ} {w : List ℝ} (hw : InBox (boxLasso d t) w) : 0 ≤ w.sum := by
  refine le_trans ?_ (lasso_penalty d t hw)
  exact List.sum_nonneg fun x hx => by
    obtain ⟨c, -, rfl⟩ := List.mem_map.1 hx
    exact abs_nonneg _

section
variable {minimize : Minimizer ℝ} {fuel : ℕ} {beta : ℝ} {X : Data ℝ} {a : Params ℝ ℕ} {g : Graph ℕ ℝ}

/-- **C86** for `from_numpy_lasso`: squared error and penalty together are not larger than those of any acyclic weights `V`, given
as positive and negative parts `w₀`, that the optimiser does not miss. -/
theorem notearsLasso_best (hm : RespectsBounds minimize) (h : notearsLasso minimize fuel beta X a = .ok g) (hmax : a.maxIter ≠ 0)
    (hb : 0 ≤ beta) :
    ∃ W : ℕ → ℕ → ℝ, (∀ i j x o, (⟨i, j, x, o⟩ : Edge ℕ ℝ) ∈ g.edges ↔ i < X.cols ∧ j < X.cols ∧ W i j = x ∧ x ≠ 0 ∧
        a.wThreshold ≤ |x| ∧ o = "unknown") ∧
      ∀ V w₀, AcyclicWeights X.cols V → (∀ i < X.cols, ∀ j < X.cols, splitMatrix X.cols w₀ i j = V i j) →
        w₀.sum = absSum X.cols V → NotWorse (problemLasso beta X) minimize (boxLasso X.cols a.tabu) w₀ →
        lassoError beta X W ≤ lassoError beta X V := by
  obtain ⟨-, -, s, hs, rfl⟩ := fromNumpyLasso_ok.1 h
  refine ⟨splitMatrix X.cols s.wEst, ?_, ?_⟩
  · intro i j x o
    rw [mem_ofMatrix]
    simp only
    constructor
    · rintro ⟨h1, h2, h3, h4, h5⟩
      have h6 := cutStrict_ne_zero.1 h3
      rw [cutStrict_eq h3] at h4
      subst h4
      exact ⟨h1, h2, rfl, h6.1, h6.2, h5⟩
    · rintro ⟨h1, h2, rfl, h4, h5, h6⟩
      have h3 := cutStrict_ne_zero.2 ⟨h4, h5⟩
      exact ⟨h1, h2, h3, (cutStrict_eq h3).symm, h6⟩
  · intro V w₀ hV h1 h2 hw
    have hm0 : matSplit X.cols w₀ = fun i j : Fin X.cols => V i j := by
      funext i j
      exact h1 i i.2 j j.2
    have := learnLoop_best (problemLasso_penalised beta X) hm hs hmax (boxLasso_zero _ _)
      (by rw [hm0]; exact (expScore_eq_zero_iff _).2 hV) hw
    rw [squaredError_congr X h1, h2] at this
    have hbox := learnLoop_inBox hm hs (boxLasso_zero _ _)
    have hp := lasso_penalty _ _ hbox
    rw [← absSum_eq] at hp
    have := mul_le_mul_of_nonneg_left hp hb
    unfold lassoError
    linarith

/-- **C86** for `from_numpy_lasso`: an optimiser that finds minima and a threshold of 0 give a graph whose squared error and penalty
together are not larger than those of any acyclic graph without excluded edges. -/
theorem notearsLasso_minimum (hm : RespectsBounds minimize) (h : notearsLasso minimize fuel beta X a = .ok g) (hmax : a.maxIter ≠ 0)
    (hb : 0 ≤ beta) (hopt : FindsMinima (problemLasso beta X) minimize (boxLasso X.cols a.tabu)) (hthr : a.wThreshold = 0)
    (V : ℕ → ℕ → ℝ) (hac : AcyclicWeights X.cols V) (hper : ∀ i < X.cols, ∀ j < X.cols, V i j ≠ 0 → Permitted a.tabu i j) :
    lassoError beta X g.weight ≤ lassoError beta X V := by
  obtain ⟨W, h1, h2⟩ := notearsLasso_best hm h hmax hb
  obtain ⟨w₀, r1, r2, r3⟩ := (lasso_representation X.cols a.tabu V).2 fun i hi j hj hp => by
    by_contra hne
    exact hp (hper i hi j hj hne)
  have hwt : ∀ i < X.cols, ∀ j < X.cols, g.weight i j = W i j := fun i hi j hj =>
    weight_eq fun x o => (h1 i j x o).trans ⟨fun e => ⟨e.2.2.1, e.2.2.2.1, e.2.2.2.2.2⟩,
      fun e => ⟨hi, hj, e.1, e.2.1, by rw [hthr]; exact abs_nonneg x, e.2.2⟩⟩
  have : lassoError beta X g.weight = lassoError beta X W := by
    unfold lassoError absSum
    rw [squaredError_congr X hwt]
    congr 2
    refine Finset.sum_congr rfl fun i hi => Finset.sum_congr rfl fun j hj => ?_
    rw [hwt i (Finset.mem_range.1 hi) j (Finset.mem_range.1 hj)]
  rw [this]
  exact h2 V w₀ hac r2 (by rw [absSum_eq]; exact r3) (hopt _ r1)

/-- **C86** for `from_numpy_lasso`, convergence. -/
theorem notearsLasso_converges (hm : RespectsBounds minimize) (h : notearsLasso minimize fuel beta X a = .ok g)
    (hmax : a.maxIter ≠ 0) (hb : 0 ≤ beta)
    (hzero : NotWorse (problemLasso beta X) minimize (boxLasso X.cols a.tabu) (List.replicate (2 * X.cols * X.cols) 0))
    (ht : 0 ≤ a.hTol) (hlim : meanSquare X ≤ 10 ^ 19 * a.hTol ^ 2) (hit : meanSquare X ≤ (a.hTol * 4 ^ (a.maxIter - 1)) ^ 2) :
    fromNumpyLassoWarns (problemLasso beta X) minimize fuel X a = false ∧
    (0 ≤ a.wThreshold → (∀ k, 0 < k → k ≤ X.cols → ((k - 1).factorial : ℝ) * a.hTol < a.wThreshold ^ (2 * k)) → g.Acyclic) := by
  have h' := h
  obtain ⟨-, -, s, hs, -⟩ := fromNumpyLasso_ok.1 h'
  have hz : ∀ i j, splitMatrix X.cols (List.replicate (2 * X.cols * X.cols) (0 : ℝ)) i j = 0 := by
    intro i j
    simp only [splitMatrix, reshape, List.take_replicate, List.drop_replicate, List.getD_eq_getElem?_getD, List.getElem?_replicate]
    split <;> split <;> simp
  have hm0 : matSplit X.cols (List.replicate (2 * X.cols * X.cols) (0 : ℝ)) = fun _ _ : Fin X.cols => 0 := by
    funext i j
    exact hz i j
  have hF : squaredError X (splitMatrix X.cols (List.replicate (2 * X.cols * X.cols) 0)) +
      beta * (List.replicate (2 * X.cols * X.cols) (0 : ℝ)).sum = squaredError X fun _ _ => 0 := by
    rw [List.sum_replicate, smul_zero, mul_zero, add_zero]
    exact squaredError_congr X fun i _ j _ => hz i j
  have hc := learnLoop_converges (c := 0) (problemLasso_penalised beta X) hm hs hmax (boxLasso_zero _ _)
    (by rw [hm0]; exact (expScore_eq_zero_iff _).2 (acyclic_zero _)) hzero
    (fun w hw => add_nonneg (squaredError_nonneg _ _) (mul_nonneg hb (sum_nonneg_of_box hw))) ht
    (by rw [hF, sub_zero, squaredError_zero]; exact hlim) (by rw [hF, sub_zero, squaredError_zero]; exact hit)
  have hw : fromNumpyLassoWarns (problemLasso beta X) minimize fuel X a = false := by
    unfold fromNumpyLassoWarns
    rw [hs]
    exact hc.2
  exact ⟨hw, fun h1 h2 => notearsLasso_acyclic h hmax hw h1 h2⟩

end

end Verif.Notears
