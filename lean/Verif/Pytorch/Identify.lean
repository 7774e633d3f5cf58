import Verif.Pytorch.Optimal
import Verif.Notears.PropsIdentify

/-!
# C133: the PyTorch version recovers linear models with errors of equal size

Without hidden layers and with continuous columns the network is a linear model.  If the data follow acyclic linear equations whose
errors are (nearly) uncorrelated and (nearly) of the same size, these equations are what is learned.
-/

namespace Verif.Pytorch

open Finset
open Verif.Notears (Minimizer RespectsBounds NotWorse FindsMinima Permitted Data squaredError EqualErrors AcyclicWeights absSum rowMajor)

/-! ### Specification -/

/-- The mean of column `j`. -/
noncomputable def Frame.mean (X : Frame) (j : ℕ) : ℝ := (∑ i ∈ range X.rows.length, realRow (X.rows.getD i []) j) / X.rows.length

/-- The data as real numbers; `centre` tells whether to subtract from every column its mean. -/
noncomputable def Frame.real (X : Frame) (centre : Bool) : Data ℝ where
  rows := X.rows.length
  cols := X.cols
  entry i j := some (realRow (X.rows.getD i []) j - if centre then X.mean j else 0)

/-- The constant in the linear equation for column `j` with the weights `V`. -/
noncomputable def Frame.intercept (X : Frame) (V : ℕ → ℕ → ℝ) (j : ℕ) : ℝ := X.mean j - ∑ k ∈ range X.cols, X.mean k * V k j

/-- The parameters of a network without hidden layers with the weight `V i j` from `i` to `j` and the biases `b`. -/
noncomputable def linearParams (d : ℕ) (useBias : Bool) (V : ℕ → ℕ → ℝ) (b : ℕ → ℝ) : List ℝ :=
  rowMajor d (fun j i => V i j) ++ if useBias then (List.range d).map b else []

/-- What the penalties amount to for the weights `V`. -/
noncomputable def penalty (d : ℕ) (lasso ridge : ℝ) (V : ℕ → ℕ → ℝ) : ℝ :=
  (lasso * ∑ i ∈ range d, ∑ j ∈ range d, |V i j| + ridge / 2 * ∑ i ∈ range d, ∑ j ∈ range d, V i j ^ 2) / d

/-- All columns are continuous. -/
def AllContinuous (X : Frame) (schema : Option (List (ℕ × Alias))) : Prop := ∀ q ∈ schemaOf X schema, q.2 = .cont

/-! ### Lemmas -/

theorem sum_rows (l : List (List ℚ)) (F : List ℚ → ℝ) : (l.map F).sum = ∑ i ∈ range l.length, F (l.getD i []) := by
  induction l with
  | nil => rfl
  | cons r l ih => rw [List.map_cons, List.sum_cons, List.length_cons, Finset.sum_range_succ', ih, add_comm]; rfl

/-- Squared distances from a point and from the mean. -/
theorem sum_sq_mean (n : ℕ) (f : ℕ → ℝ) (b : ℝ) :
    ∑ i ∈ range n, (f i - b) ^ 2 = ∑ i ∈ range n, (f i - (∑ i ∈ range n, f i) / n) ^ 2 + n * ((∑ i ∈ range n, f i) / n - b) ^ 2 := by
  by_cases hn : (n : ℝ) = 0
  · have : n = 0 := by exact_mod_cast hn
    subst this
    simp
  set m := (∑ i ∈ range n, f i) / n with hm
  have h1 : ∑ i ∈ range n, f i = n * m := by rw [hm]; field_simp
  have h2 : ∀ i, (f i - b) ^ 2 = (f i - m) ^ 2 + 2 * (m - b) * f i - (2 * (m - b) * m - (m - b) ^ 2) := fun i => by ring
  rw [Finset.sum_congr rfl fun i _ => h2 i, Finset.sum_sub_distrib, Finset.sum_add_distrib, ← Finset.mul_sum, h1, Finset.sum_const,
    Finset.card_range, nsmul_eq_mul]
  ring

theorem sum_square (d : ℕ) (f : ℕ → ℝ) : ∑ k ∈ range (d * d), f k = ∑ j ∈ range d, ∑ i ∈ range d, f (j * d + i) := by
  rw [Finset.sum_range, ← (finProdFinEquiv (m := d) (n := d)).sum_comp, Fintype.sum_prod_type, Finset.sum_range]
  refine Finset.sum_congr rfl fun j _ => ?_
  rw [Finset.sum_range]
  refine Finset.sum_congr rfl fun i _ => ?_
  congr 1
  simp only [finProdFinEquiv_apply_val]
  ring

theorem prepare_cont (s : List (ℕ × Alias)) (X : Frame) (t : Notears.Tabu ℕ) (h : ∀ q ∈ s, q.2 = .cont) :
    prepare s X t = .ok ⟨s.map fun q => .cont q.1, X, t⟩ := by
  induction s with
  | nil => rfl
  | cons q s ih =>
    obtain ⟨i, a⟩ := q
    have ha : a = .cont := h (i, a) List.mem_cons_self
    subst ha
    rw [prepare]
    simp only [fitType]
    rw [show updateTabu (.cont i) t = t from rfl, ih fun q hq => h q (List.mem_cons_of_mem _ hq)]
    rfl

section
variable {a : Arch}

/-- The weight from `i` to `j` in a network without hidden layers. -/
noncomputable def weightOf (d : ℕ) (w : List ℝ) (i j : ℕ) : ℝ := w.getD (j * d + i) 0

theorem meanEffect_linear (h : a.hidden.headD 0 = 0) (w : List ℝ) (rows : List (ℕ → ℝ)) {i j : ℕ} (hi : i < a.d) (hj : j < a.d) :
    meanEffect a (a.net w) rows i j = weightOf a.d w i j := by
  have hd2 : a.dims.length ≤ 2 := by rw [linear_dims h]; simp
  unfold meanEffect weightOf
  rw [if_pos hd2]
  have := a.pos_lt hi hj a.m1_pos
  rw [Arch.pos, a.m1_linear hd2, mul_one, mul_one, add_zero] at this
  exact a.net_weight w (by rw [a.m1_linear hd2, mul_one]; exact this)

theorem adjacency_linear (h : a.hidden.headD 0 = 0) (w : List ℝ) (rows : List (ℕ → ℝ)) {i j : ℕ} (hi : i < a.d) (hj : j < a.d) :
    adjacency a (a.net w) rows i j = |weightOf a.d w i j| := by
  have hd2 : a.dims.length ≤ 2 := by rw [linear_dims h]; simp
  rw [← meanEffect_linear h w rows hi hj]
  unfold meanEffect adjacency
  rw [if_pos hd2, if_pos hd2]

theorem sizes_linear (h : a.hidden.headD 0 = 0) : a.sizes.sum = a.d * a.d + if a.useBias then a.d else 0 := by
  have hd2 : a.dims.length ≤ 2 := by rw [linear_dims h]; simp
  unfold Arch.sizes Arch.layerDims
  rw [a.m1_linear hd2, linear_dims h]
  cases a.useBias <;> simp

theorem bias_linear (h : a.hidden.headD 0 = 0) (w : List ℝ) {j : ℕ} (hj : j < a.d) :
    biasAt (a.net w).bias j = if a.useBias then w.getD (a.d * a.d + j) 0 else 0 := by
  have hd2 : a.dims.length ≤ 2 := by rw [linear_dims h]; simp
  unfold Arch.net
  cases hb : a.useBias with
  | false => simp [biasAt]
  | true =>
    have hs : a.sizes = [a.d * a.d, a.d] := by
      unfold Arch.sizes Arch.layerDims
      rw [a.m1_linear hd2, linear_dims h, hb]
      simp
    simp only [if_true, hs, slices, List.tail_cons, List.headD_cons, biasAt, Option.map_some, Option.getD_some]
    rw [List.getD_eq_getElem?_getD, List.getD_eq_getElem?_getD, List.getElem?_take, if_pos hj, List.getElem?_drop]

/-- The losses of a network without hidden layers for continuous columns: the squared error of its weights for the data, centred if
there is a bias, plus half the squared distances of the biases from the intercepts. -/
theorem losses_linear {X : Frame} {s : List (ℕ × Alias)} (hs : (s.map Prod.fst).Perm (List.range X.cols)) (hd : a.d = X.cols)
    (h : a.hidden.headD 0 = 0) (w : List ℝ) (hr : X.rows ≠ []) :
    ((s.map fun q => Enc.cont q.1).map fun e => e.loss (X.rows.map realRow) (forward a (a.net w))).sum =
      squaredError (X.real a.useBias) (weightOf a.d w) +
        if a.useBias then 1 / 2 * ∑ j ∈ range X.cols, (X.intercept (weightOf a.d w) j - w.getD (a.d * a.d + j) 0) ^ 2 else 0 := by
  have hn : (X.rows.length : ℝ) ≠ 0 := by
    have := List.length_pos_iff.2 hr
    exact_mod_cast this.ne'
  have hperm := (hs.map fun j => (Enc.cont j).loss (X.rows.map realRow) (forward a (a.net w))).sum_eq
  rw [List.map_map] at hperm ⊢
  rw [show (s.map ((fun e : Enc => e.loss (X.rows.map realRow) (forward a (a.net w))) ∘ fun q => Enc.cont q.1)) =
    s.map ((fun j => (Enc.cont j).loss (X.rows.map realRow) (forward a (a.net w))) ∘ Prod.fst) from rfl, hperm]
  have hsum : ∀ (f : ℕ → ℝ) (n : ℕ), ((List.range n).map f).sum = ∑ j ∈ range n, f j := by
    intro f n
    induction n with
    | zero => rfl
    | succ n ih => rw [List.range_succ, List.map_append, List.sum_append, ih, Finset.sum_range_succ]; simp
  rw [hsum]
  -- the raw residuals
  let r : ℕ → ℕ → ℝ := fun i j => realRow (X.rows.getD i []) j - ∑ k ∈ range X.cols, realRow (X.rows.getD i []) k * weightOf a.d w k j
  let b : ℕ → ℝ := fun j => if a.useBias then w.getD (a.d * a.d + j) 0 else 0
  have hloss : ∀ j ∈ range X.cols, (Enc.cont j).loss (X.rows.map realRow) (forward a (a.net w)) =
      (∑ i ∈ range X.rows.length, (r i j - b j) ^ 2) / (2 * X.rows.length) := by
    intro j hj
    have hj' : j < a.d := by rw [hd]; exact Finset.mem_range.1 hj
    unfold Enc.loss
    rw [List.map_map, sum_rows, List.length_map]
    have : ∀ i ∈ range X.rows.length, ((fun x => (Enc.cont j).rowLoss x (forward a (a.net w) x)) ∘ realRow) (X.rows.getD i []) =
        1 / 2 * (r i j - b j) ^ 2 := by
      intro i _
      change 1 / 2 * (forward a (a.net w) (realRow (X.rows.getD i [])) j - realRow (X.rows.getD i []) j) ^ 2 = _
      rw [linear_forward h w [], bias_linear h w hj', hd]
      have h1 : ∑ k ∈ range X.cols, meanEffect a (a.net w) [] k j * realRow (X.rows.getD i []) k =
          ∑ k ∈ range X.cols, realRow (X.rows.getD i []) k * weightOf a.d w k j :=
        Finset.sum_congr rfl fun k hk => by
          rw [meanEffect_linear h w [] (by rw [hd]; exact Finset.mem_range.1 hk) hj', mul_comm]
      rw [h1]
      simp only [r, b, hd]
      ring
    rw [Finset.sum_congr rfl this, ← Finset.mul_sum]
    field_simp
  rw [Finset.sum_congr rfl hloss, ← Finset.sum_div]
  have hsq : squaredError (X.real a.useBias) (weightOf a.d w) = (∑ j ∈ range X.cols, ∑ i ∈ range X.rows.length,
      (r i j - if a.useBias then X.intercept (weightOf a.d w) j else 0) ^ 2) / (2 * X.rows.length) := by
    unfold squaredError
    rw [Finset.sum_comm]
    change (∑ j ∈ range X.cols, ∑ i ∈ range X.rows.length, _) / (2 * (X.rows.length : ℝ)) = _
    congr 1
    refine Finset.sum_congr rfl fun j _ => Finset.sum_congr rfl fun i _ => ?_
    congr 1
    simp only [Notears.Data.val, Frame.real, Option.getD_some, sub_mul, Finset.sum_sub_distrib, r, Frame.intercept]
    cases a.useBias <;> simp
    ring
  rw [hsq]
  cases hb : a.useBias with
  | false => simp [b, hb]
  | true =>
    have hmean : ∀ j ∈ range X.cols, (∑ i ∈ range X.rows.length, r i j) / X.rows.length = X.intercept (weightOf a.d w) j := by
      intro j _
      simp only [r, Frame.intercept, Frame.mean, Finset.sum_sub_distrib, sub_div]
      congr 1
      rw [Finset.sum_comm, Finset.sum_div]
      refine Finset.sum_congr rfl fun k _ => ?_
      rw [← Finset.sum_mul]
      ring
    simp only [if_true]
    have : ∀ j ∈ range X.cols, ∑ i ∈ range X.rows.length, (r i j - b j) ^ 2 =
        ∑ i ∈ range X.rows.length, (r i j - X.intercept (weightOf a.d w) j) ^ 2 +
          X.rows.length * (X.intercept (weightOf a.d w) j - w.getD (a.d * a.d + j) 0) ^ 2 := by
      intro j hj
      rw [sum_sq_mean, hmean j hj]
      simp only [b, hb, if_true]
    rw [Finset.sum_congr rfl this, Finset.sum_add_distrib, ← Finset.mul_sum]
    field_simp

theorem penalisedLoss_linear {X : Frame} {s : List (ℕ × Alias)} (hs : (s.map Prod.fst).Perm (List.range X.cols)) (hd : a.d = X.cols)
    (h : a.hidden.headD 0 = 0) (w : List ℝ) (hr : X.rows ≠ []) (lasso ridge : ℝ) :
    penalisedLoss a (s.map fun q => Enc.cont q.1) (X.rows.map realRow) lasso ridge w =
      squaredError (X.real a.useBias) (weightOf a.d w) +
        (if a.useBias then 1 / 2 * ∑ j ∈ range X.cols, (X.intercept (weightOf a.d w) j - w.getD (a.d * a.d + j) 0) ^ 2 else 0) +
        penalty X.cols lasso ridge (weightOf a.d w) := by
  have hd2 : a.dims.length ≤ 2 := by rw [linear_dims h]; simp
  have hnil : (a.net w).layers = [] := by
    rw [← List.length_eq_zero_iff, (a.net_layers w).1]
    unfold Arch.layerDims
    rw [linear_dims h]; rfl
  have hwc : a.weightCount = a.d * a.d := by
    unfold Arch.weightCount Arch.layerDims
    rw [a.m1_linear hd2, linear_dims h]
    simp
  unfold penalisedLoss
  rw [losses_linear hs hd h w hr, hnil, hwc, a.m1_linear hd2, mul_one]
  simp only [List.map_nil, List.sum_nil, add_zero, Nat.cast_one, one_mul]
  rw [sum_square, sum_square, add_assoc]
  congr 1
  unfold penalty weightOf
  rw [Finset.sum_comm (s := range X.cols), Finset.sum_comm (s := range X.cols) (f := fun i j => w.getD (j * a.d + i) 0 ^ 2), hd]
  by_cases h0 : (X.cols : ℝ) = 0
  · rw [h0]; simp
  · push_cast
    field_simp

/-- The score of a network without hidden layers for continuous columns. -/
theorem score_linear {s : List (ℕ × Alias)} {n : ℕ} (hl : Layout (s.map fun q => Enc.cont q.1) n a.d) (hd : a.d = n)
    (h : a.hidden.headD 0 = 0) (w : List ℝ) :
    hFunc a (s.map fun q => Enc.cont q.1) (a.net w) =
      Notears.polyScore (Matrix.hadamard (fun i j : Fin n => weightOf a.d w i j) fun i j : Fin n => weightOf a.d w i j) := by
  have hd2 : a.dims.length ≤ 2 := by rw [linear_dims h]; simp
  rw [hFunc_eq hl]
  congr 1
  funext i j
  obtain ⟨e, he, hi⟩ := hl.var i.2
  obtain ⟨f, hf, hj⟩ := hl.var j.2
  have := (collapse_blocks hl (squareWeights a (a.net w)) he hf).1
  obtain ⟨q, hq, rfl⟩ := List.mem_map.1 he
  obtain ⟨q', hq', rfl⟩ := List.mem_map.1 hf
  change q.1 = i at hi
  change q'.1 = j at hj
  simp only [Enc.cols, Enc.idx, List.toFinset_cons, List.toFinset_nil, insert_empty_eq, Finset.sum_singleton] at this
  rw [hi, hj] at this
  change collapseAll _ _ i j = weightOf a.d w i j * weightOf a.d w i j
  rw [this, squareWeights_linear hd2 _ [], adjacency_linear h w [] (by rw [hd]; exact i.2) (by rw [hd]; exact j.2), sq_abs, sq]

end

theorem penalty_nonneg {d : ℕ} {lasso ridge : ℝ} (hl : 0 ≤ lasso) (hr : 0 ≤ ridge) (V : ℕ → ℕ → ℝ) : 0 ≤ penalty d lasso ridge V := by
  unfold penalty
  have h1 : 0 ≤ ∑ i ∈ range d, ∑ j ∈ range d, |V i j| := Finset.sum_nonneg fun _ _ => Finset.sum_nonneg fun _ _ => abs_nonneg _
  have h2 : 0 ≤ ∑ i ∈ range d, ∑ j ∈ range d, V i j ^ 2 := Finset.sum_nonneg fun _ _ => Finset.sum_nonneg fun _ _ => sq_nonneg _
  positivity

theorem linearParams_weight (d : ℕ) (useBias : Bool) (V : ℕ → ℕ → ℝ) (b : ℕ → ℝ) {i j : ℕ} (hi : i < d) (hj : j < d) :
    weightOf d (linearParams d useBias V b) i j = V i j := by
  have h := Notears.rowMajor_reshape d (fun j i => V i j) hj hi
  unfold Notears.reshape at h
  unfold weightOf linearParams
  rw [List.getD_append _ _ _ _ ?_, h]
  rw [rowMajor, List.length_map, Notears.cells_length]
  nlinarith

theorem linearParams_length (d : ℕ) (useBias : Bool) (V : ℕ → ℕ → ℝ) (b : ℕ → ℝ) :
    (linearParams d useBias V b).length = d * d + if useBias then d else 0 := by
  unfold linearParams
  rw [List.length_append, rowMajor, List.length_map, Notears.cells_length]
  cases useBias <;> simp

theorem linearParams_bias (d : ℕ) (V : ℕ → ℕ → ℝ) (b : ℕ → ℝ) {j : ℕ} (hj : j < d) :
    (linearParams d true V b).getD (d * d + j) 0 = b j := by
  unfold linearParams
  have hl : (rowMajor d fun j i => V i j).length = d * d := by rw [rowMajor, List.length_map, Notears.cells_length]
  rw [List.getD_append_right _ _ _ _ (by rw [hl]; omega), hl, Nat.add_sub_cancel_left, if_pos rfl, List.getD_eq_getElem?_getD,
    List.getElem?_map, List.getElem?_range hj]
  rfl

theorem linearParams_acyclic {a : Arch} {s : List (ℕ × Alias)} {n : ℕ} (hl : Layout (s.map fun q => Enc.cont q.1) n a.d)
    (hd : a.d = n) (h : a.hidden.headD 0 = 0) {useBias : Bool} {V : ℕ → ℕ → ℝ} {b : ℕ → ℝ} (hV : AcyclicWeights n V) :
    ∀ u, ¬ Relation.TransGen (WeightEdge a (linearParams n useBias V b) (s.map fun q => Enc.cont q.1)) u u := by
  refine (hFunc_zero_iff hl _).2.1 ?_
  rw [score_linear hl hd h]
  have : Nonempty (Fin n) := ⟨⟨0, hl.pos⟩⟩
  have h3 : (fun i j : Fin n => weightOf a.d (linearParams n useBias V b) i j) = fun i j : Fin n => V i j := by
    funext i j
    rw [hd]
    exact linearParams_weight _ _ _ _ i.2 j.2
  have hn : ∀ i j : Fin n, 0 ≤ (Matrix.hadamard (fun i j : Fin n => V i j) fun i j : Fin n => V i j) i j := fun i j => mul_self_nonneg _
  rw [h3, Notears.polyScore_eq_zero_iff _ hn]
  have h4 : (fun i j : Fin n => (Matrix.hadamard (fun i j : Fin n => V i j) fun i j : Fin n => V i j) i j ≠ 0) =
      fun i j : Fin n => V i j ≠ 0 := by
    funext i j
    exact propext (not_congr mul_self_eq_zero)
  unfold Notears.NoCycle
  rw [h4]
  exact hV

theorem linearParams_loss {a : Arch} {X : Frame} {s : List (ℕ × Alias)} (hs : (s.map Prod.fst).Perm (List.range X.cols))
    (hd : a.d = X.cols) (h : a.hidden.headD 0 = 0) {useBias : Bool} (hu : a.useBias = useBias) (V : ℕ → ℕ → ℝ) (hr : X.rows ≠ [])
    (lasso ridge : ℝ) :
    penalisedLoss a (s.map fun q => Enc.cont q.1) (X.rows.map realRow) lasso ridge (linearParams X.cols useBias V (X.intercept V)) =
      squaredError (X.real useBias) V + penalty X.cols lasso ridge V := by
  have hw0 : ∀ i < X.cols, ∀ j < X.cols, weightOf X.cols (linearParams X.cols useBias V (X.intercept V)) i j = V i j :=
    fun i hi j hj => linearParams_weight _ _ _ _ hi hj
  rw [penalisedLoss_linear hs hd h _ hr, hu, hd]
  have hb0 : (if useBias then 1 / 2 * ∑ j ∈ range X.cols,
      (X.intercept (weightOf X.cols (linearParams X.cols useBias V (X.intercept V))) j -
        (linearParams X.cols useBias V (X.intercept V)).getD (X.cols * X.cols + j) 0) ^ 2 else 0) = 0 := by
    split_ifs with hb
    · rw [Finset.sum_eq_zero, mul_zero]
      intro j hj
      rw [hb, linearParams_bias _ _ _ (Finset.mem_range.1 hj)]
      have : X.intercept (weightOf X.cols (linearParams X.cols true V (X.intercept V))) j = X.intercept V j := by
        unfold Frame.intercept
        congr 1
        exact Finset.sum_congr rfl fun k hk => by
          rw [linearParams_weight _ _ _ _ (Finset.mem_range.1 hk) (Finset.mem_range.1 hj)]
      rw [this, sub_self]
      norm_num
    · rfl
  have hpen0 : penalty X.cols lasso ridge (weightOf X.cols (linearParams X.cols useBias V (X.intercept V))) =
      penalty X.cols lasso ridge V := by
    unfold penalty
    have h1 : ∀ F : ℝ → ℝ, ∑ i ∈ range X.cols, ∑ j ∈ range X.cols, F (weightOf X.cols (linearParams X.cols useBias V (X.intercept V)) i j) =
        ∑ i ∈ range X.cols, ∑ j ∈ range X.cols, F (V i j) := fun F =>
      Finset.sum_congr rfl fun i hi => Finset.sum_congr rfl fun j hj => by
        rw [hw0 i (Finset.mem_range.1 hi) j (Finset.mem_range.1 hj)]
    rw [h1 fun y => |y|, h1 fun y => y ^ 2]
  rw [hb0, hpen0, add_zero, Notears.squaredError_congr (X.real useBias) (V := V) hw0]

/-! ### Theorems -/

/-- What is known about the result of `from_numpy` for continuous columns. -/
theorem fromNumpy_cont {minimize : Minimizer ℝ} {init : ℕ → ℝ} {fuel : ℕ} {X : Frame} {x : Args ℕ} {g : Learned ℕ}
    (hd : SchemaDict x.schema) (hc : AllContinuous X x.schema) (h : fromNumpy minimize init fuel X x = .ok g) :
    prepareChecked X x.schema x.tabu = .ok ⟨(schemaOf X x.schema).map fun q => .cont q.1, X, x.tabu⟩ ∧
      X.rows ≠ [] ∧ ((schemaOf X x.schema).map Prod.fst).Perm (List.range X.cols) ∧ g.arch = archOf x X.cols ∧
      g.encs = (schemaOf X x.schema).map fun q => .cont q.1 := by
  obtain ⟨p, s, hp, -, -, rfl⟩ := fromNumpy_ok h
  obtain ⟨h1, -, h3, h4⟩ := prepareChecked_ok hp hd
  rw [prepare_cont _ _ _ hc] at h3
  cases h3
  exact ⟨hp, h1, h4, rfl, rfl⟩

/-- The learned parameters have at most the loss of the equations, and the score is that of the weights. -/
theorem fromNumpy_linear_best {V : ℕ → ℕ → ℝ} {minimize : Minimizer ℝ} {init : ℕ → ℝ} {fuel : ℕ} {X : Frame} {x : Args ℕ} {g : Learned ℕ}
    (hV : AcyclicWeights X.cols V) (hwf : X.WF) (hsd : SchemaDict x.schema) (hcont : AllContinuous X x.schema)
    (hlin : (hiddenUnits x.hidden).headD 0 = 0) (hm : RespectsBounds minimize) (h : fromNumpy minimize init fuel X x = .ok g)
    (hmax : x.maxIter ≠ 0)
    (hopt : NotWorse (torchProblem g.arch g.encs (X.rows.map realRow) x.lasso x.ridge) minimize (boundsOf g.arch x.tabu)
      (linearParams X.cols x.useBias V (X.intercept V))) :
    squaredError (X.real x.useBias) (weightOf g.arch.d g.params) +
        (if x.useBias then 1 / 2 * ∑ j ∈ range X.cols,
          (X.intercept (weightOf g.arch.d g.params) j - g.params.getD (g.arch.d * g.arch.d + j) 0) ^ 2 else 0) +
        penalty X.cols x.lasso x.ridge (weightOf g.arch.d g.params) ≤
      squaredError (X.real x.useBias) V + penalty X.cols x.lasso x.ridge V ∧
    g.score = Notears.polyScore (Matrix.hadamard (fun i j : Fin X.cols => weightOf g.arch.d g.params i j)
      fun i j : Fin X.cols => weightOf g.arch.d g.params i j) := by
  obtain ⟨hp, hr, hperm, harch, henc⟩ := fromNumpy_cont hsd hcont h
  have had : g.arch.d = X.cols := by rw [harch]; rfl
  have hah : g.arch.hidden.headD 0 = 0 := by rw [harch]; exact hlin
  have hau : g.arch.useBias = x.useBias := by rw [harch]; rfl
  have hlen0 : (linearParams X.cols x.useBias V (X.intercept V)).length = g.arch.sizes.sum := by
    rw [linearParams_length, sizes_linear hah, had, hau]
  have hlay := (fromNumpy_layout hwf hsd h).1
  have hac : ∀ u, ¬ Relation.TransGen (WeightEdge g.arch (linearParams X.cols x.useBias V (X.intercept V)) g.encs) u u := by
    have h2 := hlay
    rw [henc] at h2 ⊢
    exact linearParams_acyclic h2 had hah hV
  have hbest := fromNumpy_best hm hwf hsd h hmax hp hlen0 hac hopt
  have hL0 := linearParams_loss hperm had hah hau V hr x.lasso x.ridge
  rw [henc] at hbest
  change penalisedLoss _ _ (X.rows.map realRow) _ _ _ ≤ penalisedLoss _ _ (X.rows.map realRow) _ _ _ at hbest
  rw [penalisedLoss_linear hperm had hah _ hr, hL0, hau] at hbest
  refine ⟨hbest, ?_⟩
  unfold Learned.score
  rw [henc] at hlay ⊢
  exact score_linear hlay had hah _

/-- The learned edges for continuous columns and no hidden layers. -/
theorem fromNumpy_linear_edges {minimize : Minimizer ℝ} {init : ℕ → ℝ} {fuel : ℕ} {X : Frame} {x : Args ℕ} {g : Learned ℕ}
    (hsd : SchemaDict x.schema) (hcont : AllContinuous X x.schema) (hlin : (hiddenUnits x.hidden).headD 0 = 0)
    (h : fromNumpy minimize init fuel X x = .ok g) (e : LEdge ℕ) :
    e ∈ g.edges ↔ e.src < X.cols ∧ e.dst < X.cols ∧ e.weight = |weightOf g.arch.d g.params e.src e.dst| ∧
      e.weight ≠ 0 ∧ (∀ t, x.wThreshold = some t → t ≤ e.weight) ∧ e.meanEffect = weightOf g.arch.d g.params e.src e.dst ∧
      e.origin = "learned" := by
  obtain ⟨hp, -, -, harch, -⟩ := fromNumpy_cont hsd hcont h
  have hah : g.arch.hidden.headD 0 = 0 := by rw [harch]; exact hlin
  obtain ⟨p, s, hp', -, hs, rfl⟩ := fromNumpy_ok h
  rw [hp] at hp'
  cases hp'
  rw [mem_buildGraph]
  change e.src < X.cols ∧ e.dst < X.cols ∧ _ ↔ _
  refine and_congr_right fun h1 => and_congr_right fun h2 => ?_
  rw [adjacency_linear (a := archOf x X.cols) hah _ _ h1 h2, meanEffect_linear (a := archOf x X.cols) hah _ _ h1 h2]
  rfl

/-- **C133**: without hidden layers, if all columns are continuous, the errors of acyclic linear equations with the weights `V` are
nearly uncorrelated and nearly of the same size, the penalties are small, the optimiser does not miss these equations and the final
score is small, then the learned edges are exactly those of `V`, with nearly the same effects.  With `use_bias` the equations may have
constants: the errors are those for the data minus the means of the columns. -/
theorem fromNumpy_recovers {d : ℕ} {V : ℕ → ℕ → ℝ} {ε : ℝ} (hV : AcyclicWeights d V) (hε : 0 < ε) :
    ∃ δ > 0, ∀ (X : Frame) (v : ℝ) (minimize : Minimizer ℝ) (init : ℕ → ℝ) (fuel : ℕ) (x : Args ℕ) (g : Learned ℕ) (t : ℝ),
      X.WF → X.cols = d → SchemaDict x.schema → AllContinuous X x.schema → (hiddenUnits x.hidden).headD 0 = 0 → 0 < v →
      EqualErrors (X.real x.useBias) V v (δ * v) → RespectsBounds minimize → fromNumpy minimize init fuel X x = .ok g →
      x.maxIter ≠ 0 → 0 ≤ x.lasso → 0 ≤ x.ridge → penalty d x.lasso x.ridge V ≤ δ * v →
      NotWorse (torchProblem g.arch g.encs (X.rows.map realRow) x.lasso x.ridge) minimize (boundsOf g.arch x.tabu)
        (linearParams d x.useBias V (X.intercept V)) →
      g.score ≤ δ → x.wThreshold = some t → ε ≤ t → (∀ i < d, ∀ j < d, V i j ≠ 0 → t + ε ≤ |V i j|) →
      (∀ i j, (∃ e ∈ g.edges, e.src = i ∧ e.dst = j) ↔ i < d ∧ j < d ∧ V i j ≠ 0) ∧
      ∀ e ∈ g.edges, |e.meanEffect - V e.src e.dst| < ε := by
  obtain ⟨δ, hδ, hnear⟩ := Notears.identified_continuous (V := V) Notears.polyScore_continuous Notears.noCycle_of_polyScore hV hε
  refine ⟨δ, hδ, fun X v minimize init fuel x g t hwf hX hsd hcont hlin hv hE hm h hmax hlasso hridge hpen hopt hsc hthr hεt hbig => ?_⟩
  subst hX
  obtain ⟨hbest, hscore⟩ := fromNumpy_linear_best hV hwf hsd hcont hlin hm h hmax hopt
  have hpenw := penalty_nonneg (d := X.cols) hlasso hridge (weightOf g.arch.d g.params)
  have hbw : 0 ≤ (if x.useBias then 1 / 2 * ∑ j ∈ range X.cols,
      (X.intercept (weightOf g.arch.d g.params) j - g.params.getD (g.arch.d * g.arch.d + j) 0) ^ 2 else 0) := by
    split_ifs
    · have h2 : 0 ≤ ∑ j ∈ range X.cols, (X.intercept (weightOf g.arch.d g.params) j - g.params.getD (g.arch.d * g.arch.d + j) 0) ^ 2 :=
        Finset.sum_nonneg fun _ _ => sq_nonneg _
      linarith
    · exact le_refl _
  have hclose := hnear (X.real x.useBias) v rfl hv hE (weightOf g.arch.d g.params) (by linarith) (hscore ▸ hsc)
  have hedge : ∀ e : LEdge ℕ, e ∈ g.edges ↔ e.src < X.cols ∧ e.dst < X.cols ∧ e.weight = |weightOf g.arch.d g.params e.src e.dst| ∧
      e.weight ≠ 0 ∧ t ≤ e.weight ∧ e.meanEffect = weightOf g.arch.d g.params e.src e.dst ∧ e.origin = "learned" := by
    intro e
    rw [fromNumpy_linear_edges hsd hcont hlin h, hthr]
    simp only [Option.some.injEq, forall_eq']
  constructor
  · intro i j
    constructor
    · rintro ⟨e, he, rfl, rfl⟩
      obtain ⟨h1, h2, h3, -, h5, -, -⟩ := (hedge e).1 he
      refine ⟨h1, h2, fun h0 => ?_⟩
      have := hclose _ h1 _ h2
      rw [h0, sub_zero] at this
      linarith
    · rintro ⟨h1, h2, h3⟩
      have h4 := hbig i h1 j h2 h3
      have h5 := hclose i h1 j h2
      have h6 := abs_sub_abs_le_abs_sub (V i j) (weightOf g.arch.d g.params i j)
      rw [abs_sub_comm] at h5
      have h7 : t ≤ |weightOf g.arch.d g.params i j| := by linarith
      exact ⟨⟨i, j, |weightOf g.arch.d g.params i j|, weightOf g.arch.d g.params i j, "learned"⟩,
        (hedge _).2 ⟨h1, h2, rfl, (lt_of_lt_of_le (lt_of_lt_of_le hε hεt) h7).ne', h7, rfl, rfl⟩, rfl, rfl⟩
  · intro e he
    obtain ⟨h1, h2, -, -, -, h6, -⟩ := (hedge e).1 he
    rw [h6]
    exact hclose _ h1 _ h2

/-- **C133**, convergence: if the optimiser does not miss acyclic equations with the weights `V` and there are enough iterations, then
no warning is given, and the final score is at most `1e-8` or at most the square root of `2 L / 1e15`, where `L` is the squared error
of these equations plus their penalty. -/
theorem fromNumpy_linear_converges {minimize : Minimizer ℝ} {init : ℕ → ℝ} {fuel : ℕ} {X : Frame} {x : Args ℕ} {g : Learned ℕ}
    {V : ℕ → ℕ → ℝ} (hV : AcyclicWeights X.cols V) (hwf : X.WF) (hsd : SchemaDict x.schema) (hc : AllContinuous X x.schema)
    (hlin : (hiddenUnits x.hidden).headD 0 = 0) (hm : RespectsBounds minimize) (h : fromNumpy minimize init fuel X x = .ok g)
    (hmax : x.maxIter ≠ 0) (hlasso : 0 ≤ x.lasso) (hridge : 0 ≤ x.ridge)
    (hopt : NotWorse (torchProblem g.arch g.encs (X.rows.map realRow) x.lasso x.ridge) minimize (boundsOf g.arch x.tabu)
      (linearParams X.cols x.useBias V (X.intercept V)))
    (hit : 2 * (squaredError (X.real x.useBias) V + penalty X.cols x.lasso x.ridge V) ≤ (1 / 10 ^ 8 * 4 ^ (x.maxIter - 1)) ^ 2) :
    g.warned = false ∧ (g.score ≤ 1 / 10 ^ 8 ∨
      g.score ^ 2 ≤ 2 * (squaredError (X.real x.useBias) V + penalty X.cols x.lasso x.ridge V) / 10 ^ 15) := by
  obtain ⟨hp, hr, hperm, harch, henc⟩ := fromNumpy_cont hsd hc h
  have had : g.arch.d = X.cols := by rw [harch]; rfl
  have hah : g.arch.hidden.headD 0 = 0 := by rw [harch]; exact hlin
  have hau : g.arch.useBias = x.useBias := by rw [harch]; rfl
  have hlen0 : (linearParams X.cols x.useBias V (X.intercept V)).length = g.arch.sizes.sum := by
    rw [linearParams_length, sizes_linear hah, had, hau]
  have hlay := (fromNumpy_layout hwf hsd h).1
  have hac : ∀ u, ¬ Relation.TransGen (WeightEdge g.arch (linearParams X.cols x.useBias V (X.intercept V)) g.encs) u u := by
    have h2 := hlay
    rw [henc] at h2 ⊢
    exact linearParams_acyclic h2 had hah hV
  have hL0 : penalisedLoss g.arch g.encs (X.rows.map realRow) x.lasso x.ridge (linearParams X.cols x.useBias V (X.intercept V)) =
      squaredError (X.real x.useBias) V + penalty X.cols x.lasso x.ridge V := by
    rw [henc]
    exact linearParams_loss hperm had hah hau V hr x.lasso x.ridge
  have hnn : ∀ w : List ℝ, w.length = g.arch.sizes.sum →
      0 ≤ penalisedLoss g.arch g.encs (X.rows.map realRow) x.lasso x.ridge w := by
    intro w _
    rw [henc, penalisedLoss_linear hperm had hah w hr]
    refine add_nonneg (add_nonneg (Notears.squaredError_nonneg _ _) ?_) (penalty_nonneg hlasso hridge _)
    split_ifs
    · exact mul_nonneg (by norm_num) (Finset.sum_nonneg fun _ _ => sq_nonneg _)
    · exact le_refl _
  have := fromNumpy_converges hm hwf hsd h hmax hp hlen0 hac hopt (c := 0) hnn
  change 2 * (penalisedLoss g.arch g.encs (X.rows.map realRow) x.lasso x.ridge _ - 0) ≤ _ → g.warned = false ∧ (_ ∨
    _ ≤ 2 * (penalisedLoss g.arch g.encs (X.rows.map realRow) x.lasso x.ridge _ - 0) / _) at this
  rw [hL0, sub_zero] at this
  exact this hit

end Verif.Pytorch
