import Verif.Notears.Loop
import Mathlib.Data.List.Nodup
import Mathlib.Data.List.Range

/-!
# Properties of structure learning with NOTEARS: C38, C39, C42, C43, C44
-/

namespace Verif.Notears

/-! ### Layout -/

theorem cells_length (d : ℕ) : (cells d).length = d * d := by
  simp [cells, List.length_flatMap]

theorem flatMap_range_get {α : Type} (f : ℕ → List α) (m n : ℕ) (hf : ∀ i, (f i).length = m) (i j : ℕ)
    (hi : i < n) (hj : j < m) : ((List.range n).flatMap f)[i * m + j]? = (f i)[j]? := by
  induction n generalizing i f with
  | zero => omega
  | succ n ih =>
    rw [List.range_succ_eq_map, List.flatMap_cons, List.flatMap_map]
    cases i with
    | zero => rw [Nat.zero_mul, Nat.zero_add, List.getElem?_append_left (by rw [hf]; exact hj)]
    | succ i =>
      rw [List.getElem?_append_right (by rw [hf, Nat.succ_mul]; omega), hf,
        show (i + 1) * m + j - m = i * m + j by rw [Nat.succ_mul]; omega]
      exact ih (fun i => f (i + 1)) (fun i => hf _) i (by omega)

theorem cells_get {d i j : ℕ} (hi : i < d) (hj : j < d) : (cells d)[i * d + j]? = some (i, j) := by
  rw [cells, flatMap_range_get _ d d (by simp) i j hi hj]
  simp [hj]

theorem mem_cells {d i j : ℕ} : (i, j) ∈ cells d ↔ i < d ∧ j < d := by
  simp [cells]

theorem cells_nodup (d : ℕ) : (cells d).Nodup := by
  rw [cells, List.nodup_flatMap]
  constructor
  · intro i _
    exact List.nodup_range.map fun a b h => (Prod.mk.inj h).2
  · refine List.nodup_range.imp ?_
    intro a b hab
    simp only [Function.onFun, List.disjoint_left, List.mem_map]
    rintro _ ⟨x, -, rfl⟩ ⟨y, -, h⟩
    exact hab (Prod.mk.inj h).1.symm

section
variable {K : Type} [Field K] [LinearOrder K]
variable {P : Problem K} {minimize : Minimizer K}

theorem mem_ofMatrix {d : ℕ} {W : ℕ → ℕ → K} {e : Edge ℕ K} :
    e ∈ (ofMatrix d W).edges ↔ e.src < d ∧ e.dst < d ∧ W e.src e.dst ≠ 0 ∧ e.weight = W e.src e.dst ∧
      e.origin = "unknown" := by
  simp only [ofMatrix, List.mem_filterMap]
  constructor
  · rintro ⟨c, hc, h⟩
    split at h
    · cases h
      exact ⟨(mem_cells.1 hc).1, (mem_cells.1 hc).2, by assumption, rfl, rfl⟩
    · cases h
  · rintro ⟨h1, h2, h3, h4, h5⟩
    refine ⟨(e.src, e.dst), mem_cells.2 ⟨h1, h2⟩, ?_⟩
    rw [if_pos h3]
    cases e
    simp only at h4 h5
    subst h4 h5
    rfl

theorem ofMatrix_pairs_nodup (d : ℕ) (W : ℕ → ℕ → K) :
    ((ofMatrix d W).edges.map fun e => (e.src, e.dst)).Nodup := by
  have : ((ofMatrix d W).edges.map fun e => (e.src, e.dst)).Sublist (cells d) := by
    rw [ofMatrix]
    simp only
    generalize cells d = l
    induction l with
    | nil => exact .slnil
    | cons c l ih =>
      rw [List.filterMap_cons]
      split
      · exact ih.cons _
      · rename_i b h
        split at h
        · cases h
          rw [List.map_cons]
          exact ih.cons_cons _
        · cases h
  exact (cells_nodup d).sublist this

/-! ### C38 -/

theorem bound_zero {t : Tabu ℕ} {free : Bound K} {i j : ℕ} (h : ¬ Permitted t i j) :
    bound t free (i, j) = (some 0, some 0) := by
  unfold bound
  split_ifs with h1 h2 h3 h4
  · rfl
  · rfl
  · rfl
  · rfl
  · exfalso
    apply h
    refine ⟨h1, ?_, ?_, ?_⟩
    · rintro te hte hm
      exact h2 (by rw [hte]; simpa using hm)
    · rintro te hte hm
      exact h3 (by rw [hte]; simpa using hm)
    · rintro te hte hm
      exact h4 (by rw [hte]; simpa using hm)

theorem bound_free {t : Tabu ℕ} {free : Bound K} {i j : ℕ} (h : Permitted t i j) :
    bound t free (i, j) = free := by
  obtain ⟨h1, h2, h3, h4⟩ := h
  unfold bound
  rw [if_neg h1, if_neg, if_neg, if_neg]
  · cases hc : t.children with
    | none => simp
    | some tc => simpa using h4 tc hc
  · cases hc : t.parents with
    | none => simp
    | some tc => simpa using h3 tc hc
  · cases hc : t.edges with
    | none => simp
    | some tc => simpa using h2 tc hc

theorem inBox_getD {bnds : List (Bound K)} {w : List K} (h : InBox bnds w) {k : ℕ} {b : Bound K}
    (hk : bnds[k]? = some b) :
    (∀ l, b.1 = some l → l ≤ w.getD k 0) ∧ ∀ u, b.2 = some u → w.getD k 0 ≤ u := by
  obtain ⟨hlen, hall⟩ := List.forall₂_iff_get.1 h
  obtain ⟨hk1, hk2⟩ := List.getElem?_eq_some_iff.1 hk
  have := hall k hk1 (by omega)
  simp only [List.get_eq_getElem, hk2] at this
  rw [List.getD_eq_getElem _ _ (by omega)]
  exact this

theorem inBox_zero {t : Tabu ℕ} {free : Bound K} (hf : ∀ l, free.1 = some l → l ≤ 0)
    (hf' : ∀ u, free.2 = some u → 0 ≤ u) (l : List (ℕ × ℕ)) :
    InBox (l.map (bound t free)) (List.replicate l.length 0) := by
  induction l with
  | nil => exact .nil
  | cons c l ih =>
    refine .cons ?_ ih
    by_cases h : Permitted t c.1 c.2
    · rw [show bound t free c = free from bound_free h]
      exact ⟨hf, hf'⟩
    · rw [show bound t free c = (some 0, some 0) from bound_zero h]
      simp

/-- A vector within the bounds is zero wherever an edge is excluded. -/
theorem inBox_forbidden {t : Tabu ℕ} {free : Bound K} {d : ℕ} {w : List K}
    (h : InBox ((cells d).map (bound t free)) w) {i j : ℕ} (hi : i < d) (hj : j < d)
    (hp : ¬ Permitted t i j) : reshape d w i j = 0 := by
  have := inBox_getD h (k := i * d + j) (b := (some 0, some 0)) (by
    rw [List.getElem?_map, cells_get hi hj, Option.map_some, bound_zero hp])
  exact le_antisymm (this.2 0 rfl) (this.1 0 rfl)

theorem reshape_map (d : ℕ) (w : List K) (f : K → K) (hf : f 0 = 0) (i j : ℕ) :
    reshape d (w.map f) i j = f (reshape d w i j) := by
  unfold reshape
  rw [List.getD_eq_getElem?_getD, List.getD_eq_getElem?_getD, List.getElem?_map]
  cases w[i * d + j]? <;> simp [hf]

theorem cutPlain_zero (thr : K) : cutPlain thr 0 = 0 := by
  unfold cutPlain; split <;> rfl

theorem cutPlain_ne_zero {thr x : K} : cutPlain thr x ≠ 0 ↔ x ≠ 0 ∧ thr < |x| := by
  unfold cutPlain
  split
  · rename_i h
    simp [not_lt_of_ge h]
  · rename_i h
    simp [lt_of_not_ge h]

theorem cutPlain_eq {thr x : K} (h : cutPlain thr x ≠ 0) : cutPlain thr x = x := by
  unfold cutPlain at *
  split
  · rename_i h'; simp [h'] at h
  · rfl

theorem cutStrict_ne_zero {thr x : K} : cutStrict thr x ≠ 0 ↔ x ≠ 0 ∧ thr ≤ |x| := by
  unfold cutStrict
  split
  · rename_i h
    simp [not_le_of_gt h]
  · rename_i h
    simp [le_of_not_gt h]

theorem cutStrict_eq {thr x : K} (h : cutStrict thr x ≠ 0) : cutStrict thr x = x := by
  unfold cutStrict at *
  split
  · rename_i h'; simp [h'] at h
  · rfl

theorem size_ne_zero {X : Data K} (h : ¬ X.rows * X.cols = 0) : X.cols ≠ 0 := by
  rintro h0
  exact h (by rw [h0, Nat.mul_zero])

/-- What the successful call of `from_numpy` returns, in terms of the weights at the end of the loop. -/
theorem fromNumpy_ok {fuel : ℕ} {X : Data K} {a : Params K ℕ} {g : Graph ℕ K} :
    fromNumpy P minimize fuel X a = .ok g ↔ X.finite = true ∧ X.rows * X.cols ≠ 0 ∧
      ∃ s, learnLoop P minimize ((cells X.cols).map (bound a.tabu (none, none))) (X.cols * X.cols)
        a.maxIter a.hTol fuel = some s ∧
        g = ofMatrix X.cols (reshape X.cols (s.wEst.map (cutPlain a.wThreshold))) := by
  unfold fromNumpy learnStructure
  cases hf : X.finite
  · simp
  · by_cases h0 : X.rows * X.cols = 0
    · simp [h0]
    · cases hl : learnLoop P minimize ((cells X.cols).map (bound a.tabu (none, none))) (X.cols * X.cols)
        a.maxIter a.hTol fuel with
      | none => simp [h0]
      | some s => simp [h0, eq_comm]

theorem fromNumpyLasso_ok {fuel : ℕ} {X : Data K} {a : Params K ℕ} {g : Graph ℕ K} :
    fromNumpyLasso P minimize fuel X a = .ok g ↔ X.finite = true ∧ X.rows * X.cols ≠ 0 ∧
      ∃ s, learnLoop P minimize ((cells X.cols).map (bound a.tabu (some 0, none)) ++
        (cells X.cols).map (bound a.tabu (some 0, none))) (2 * X.cols * X.cols)
        a.maxIter a.hTol fuel = some s ∧
        g = ofMatrix X.cols fun i j => cutStrict a.wThreshold (splitMatrix X.cols s.wEst i j) := by
  unfold fromNumpyLasso learnStructureLasso
  cases hf : X.finite
  · simp
  · by_cases h0 : X.rows * X.cols = 0
    · simp [h0]
    · cases hl : learnLoop P minimize ((cells X.cols).map (bound a.tabu (some 0, none)) ++
        (cells X.cols).map (bound a.tabu (some 0, none))) (2 * X.cols * X.cols)
        a.maxIter a.hTol fuel with
      | none => simp [h0, hl]
      | some s => simp [h0, hl, eq_comm]

/-- **C38** for `from_numpy`: whatever the optimiser does within its bounds, no excluded edge is learned. -/
theorem fromNumpy_permitted (hm : RespectsBounds minimize) {fuel : ℕ} {X : Data K} {a : Params K ℕ}
    {g : Graph ℕ K} (h : fromNumpy P minimize fuel X a = .ok g) :
    ∀ e ∈ g.edges, Permitted a.tabu e.src e.dst := by
  obtain ⟨-, -, s, hs, rfl⟩ := fromNumpy_ok.1 h
  have hbox := learnLoop_inBox hm hs (by
    rw [← cells_length]
    exact inBox_zero (by simp) (by simp) _)
  intro e he
  obtain ⟨h1, h2, h3, -⟩ := mem_ofMatrix.1 he
  by_contra hp
  rw [reshape_map _ _ _ (cutPlain_zero _), inBox_forbidden hbox h1 h2 hp] at h3
  exact h3 (cutPlain_zero _)

theorem inBox_append {b b' : List (Bound K)} {w : List K} (h : InBox (b ++ b') w) :
    InBox b (w.take b.length) ∧ InBox b' (w.drop b.length) := by
  have h1 := List.forall₂_take b.length h
  have h2 := List.forall₂_drop b.length h
  rw [List.take_left] at h1
  rw [List.drop_left] at h2
  exact ⟨h1, h2⟩

/-- **C38** for `from_numpy_lasso`. -/
theorem fromNumpyLasso_permitted (hm : RespectsBounds minimize) {fuel : ℕ} {X : Data K}
    {a : Params K ℕ} {g : Graph ℕ K} (h : fromNumpyLasso P minimize fuel X a = .ok g) :
    ∀ e ∈ g.edges, Permitted a.tabu e.src e.dst := by
  obtain ⟨-, -, s, hs, rfl⟩ := fromNumpyLasso_ok.1 h
  have h0 : InBox ((cells X.cols).map (bound a.tabu (some (0 : K), none))) (List.replicate (cells X.cols).length 0) :=
    inBox_zero (by simp) (by simp) _
  have hbox := learnLoop_inBox hm hs (by
    rw [show 2 * X.cols * X.cols = (cells X.cols).length + (cells X.cols).length by
      rw [cells_length, Nat.mul_assoc]; omega, List.replicate_add]
    exact List.rel_append h0 h0)
  obtain ⟨hb1, hb2⟩ := inBox_append hbox
  rw [List.length_map, cells_length, ← sq] at hb1 hb2
  intro e he
  obtain ⟨h1, h2, h3, -⟩ := mem_ofMatrix.1 he
  by_contra hp
  rw [splitMatrix, inBox_forbidden hb1 h1 h2 hp, inBox_forbidden hb2 h1 h2 hp, sub_zero] at h3
  simp [cutStrict] at h3

/-! ### C39 -/

/-- **C39** for `from_numpy`: there is a vector of weights, all zero or returned by the optimiser, such that
the edges are exactly its nonzero entries above the threshold. -/
theorem fromNumpy_threshold {fuel : ℕ} {X : Data K} {a : Params K ℕ} {g : Graph ℕ K}
    (h : fromNumpy P minimize fuel X a = .ok g) :
    ∃ w, (w = List.replicate (X.cols * X.cols) 0 ∨
        Returned P minimize ((cells X.cols).map (bound a.tabu (none, none))) w) ∧
      g.nodes = List.range X.cols ∧
      ∀ i j x o, (⟨i, j, x, o⟩ : Edge ℕ K) ∈ g.edges ↔ i < X.cols ∧ j < X.cols ∧
        w.getD (i * X.cols + j) 0 = x ∧ x ≠ 0 ∧ a.wThreshold < |x| ∧ o = "unknown" := by
  obtain ⟨-, -, s, hs, rfl⟩ := fromNumpy_ok.1 h
  refine ⟨s.wEst, learnLoop_returned hs, rfl, ?_⟩
  intro i j x o
  rw [mem_ofMatrix, reshape_map _ _ _ (cutPlain_zero _)]
  simp only
  change _ ↔ i < X.cols ∧ j < X.cols ∧ reshape X.cols s.wEst i j = x ∧ _
  constructor
  · rintro ⟨h1, h2, h3, h4, h5⟩
    have h6 := cutPlain_ne_zero.1 h3
    rw [cutPlain_eq h3] at h4
    subst h4
    exact ⟨h1, h2, rfl, h6.1, h6.2, h5⟩
  · rintro ⟨h1, h2, rfl, h4, h5, h6⟩
    have h3 := cutPlain_ne_zero.2 ⟨h4, h5⟩
    exact ⟨h1, h2, h3, (cutPlain_eq h3).symm, h6⟩

/-- **C39** and **C44** for `from_numpy_lasso`: the same with `≥`, for the difference of the two halves
of the vector. -/
theorem fromNumpyLasso_threshold {fuel : ℕ} {X : Data K} {a : Params K ℕ} {g : Graph ℕ K}
    (h : fromNumpyLasso P minimize fuel X a = .ok g) :
    ∃ w, (w = List.replicate (2 * X.cols * X.cols) 0 ∨
        Returned P minimize ((cells X.cols).map (bound a.tabu (some 0, none)) ++
          (cells X.cols).map (bound a.tabu (some 0, none))) w) ∧
      g.nodes = List.range X.cols ∧
      ∀ i j x o, (⟨i, j, x, o⟩ : Edge ℕ K) ∈ g.edges ↔ i < X.cols ∧ j < X.cols ∧
        splitMatrix X.cols w i j = x ∧ x ≠ 0 ∧ a.wThreshold ≤ |x| ∧ o = "unknown" := by
  obtain ⟨-, -, s, hs, rfl⟩ := fromNumpyLasso_ok.1 h
  refine ⟨s.wEst, learnLoop_returned hs, rfl, ?_⟩
  intro i j x o
  rw [mem_ofMatrix]
  simp only
  constructor
  · rintro ⟨h1, h2, h3, h4, h5⟩
    have h6 := cutStrict_ne_zero.1 h3
    rw [cutStrict_eq h3] at h4
    subst h4
    exact ⟨h1, h2, rfl, h6.1, h6.2, h5⟩
  · rintro ⟨h1, h2, rfl, h4, h5, h6⟩
    have h3 := cutStrict_ne_zero.2 ⟨h4, h5⟩
    exact ⟨h1, h2, h3, (cutStrict_eq h3).symm, h6⟩

/-! ### C42 -/

section
variable [IsStrictOrderedRing K]

/-- **C42** for `from_numpy` and `from_numpy_lasso`: with finite scores they end, and raise exactly for
data that is empty or not finite. -/
theorem fromNumpy_total (hP : FiniteScores P) {fuel : ℕ} (hf : 21 ≤ fuel) (X : Data K)
    (a : Params K ℕ) :
    (X.finite = true ∧ X.rows * X.cols ≠ 0 → ∃ g, fromNumpy P minimize fuel X a = .ok g) ∧
    (¬ (X.finite = true ∧ X.rows * X.cols ≠ 0) →
      fromNumpy P minimize fuel X a = .error .valueError) := by
  constructor
  · rintro ⟨h1, h2⟩
    obtain ⟨s, hs, -⟩ := learnLoop_terminates (minimize := minimize)
      (bnds := (cells X.cols).map (bound a.tabu (none, none))) hP (X.cols * X.cols) a.maxIter a.hTol hf
    exact ⟨_, fromNumpy_ok.2 ⟨h1, h2, s, hs, rfl⟩⟩
  · intro h
    unfold fromNumpy learnStructure
    cases hfin : X.finite
    · simp
    · have : X.rows * X.cols = 0 := by
        by_contra h0
        exact h ⟨hfin, h0⟩
      simp [this]

theorem fromNumpyLasso_total (hP : FiniteScores P) {fuel : ℕ} (hf : 21 ≤ fuel) (X : Data K)
    (a : Params K ℕ) :
    (X.finite = true ∧ X.rows * X.cols ≠ 0 → ∃ g, fromNumpyLasso P minimize fuel X a = .ok g) ∧
    (¬ (X.finite = true ∧ X.rows * X.cols ≠ 0) →
      fromNumpyLasso P minimize fuel X a = .error .valueError) := by
  constructor
  · rintro ⟨h1, h2⟩
    obtain ⟨s, hs, -⟩ := learnLoop_terminates (minimize := minimize)
      (bnds := (cells X.cols).map (bound a.tabu (some 0, none)) ++
        (cells X.cols).map (bound a.tabu (some 0, none))) hP (2 * X.cols * X.cols) a.maxIter a.hTol hf
    exact ⟨_, fromNumpyLasso_ok.2 ⟨h1, h2, s, hs, rfl⟩⟩
  · intro h
    unfold fromNumpyLasso learnStructureLasso
    cases hfin : X.finite
    · simp
    · have : X.rows * X.cols = 0 := by
        by_contra h0
        exact h ⟨hfin, h0⟩
      simp [this]

/-- With `max_iter = 0` nothing is learned. -/
theorem fromNumpy_no_iterations {fuel : ℕ} {X : Data K} {a : Params K ℕ} {g : Graph ℕ K}
    (ha : a.maxIter = 0) (h : fromNumpy P minimize fuel X a = .ok g ∨
      fromNumpyLasso P minimize fuel X a = .ok g) : g.edges = [] := by
  rcases h with h | h
  · obtain ⟨-, -, s, hs, rfl⟩ := fromNumpy_ok.1 h
    rw [ha, learnLoop_zero] at hs
    cases hs
    rw [List.eq_nil_iff_forall_not_mem]
    intro e he
    obtain ⟨-, -, h3, -⟩ := mem_ofMatrix.1 he
    rw [reshape_map _ _ _ (cutPlain_zero _)] at h3
    apply h3
    have : reshape X.cols (initSt (X.cols * X.cols) : St K).wEst e.src e.dst = 0 := by
      simp only [reshape, initSt, List.getD_eq_getElem?_getD, List.getElem?_replicate]
      split <;> rfl
    rw [this, cutPlain_zero]
  · obtain ⟨-, -, s, hs, rfl⟩ := fromNumpyLasso_ok.1 h
    rw [ha, learnLoop_zero] at hs
    cases hs
    rw [List.eq_nil_iff_forall_not_mem]
    intro e he
    obtain ⟨-, -, h3, -⟩ := mem_ofMatrix.1 he
    apply h3
    have : splitMatrix X.cols (initSt (2 * X.cols * X.cols) : St K).wEst e.src e.dst = 0 := by
      simp only [splitMatrix, reshape, initSt, List.getD_eq_getElem?_getD, List.take_replicate,
        List.drop_replicate, List.getElem?_replicate]
      split <;> split <;> simp
    rw [this]
    simp [cutStrict]

end

/-! ### C44 -/

section
variable [IsStrictOrderedRing K]

/-- **C44**: the matrices represented by vectors within the bounds of the lasso version are exactly the
matrices that vanish at excluded positions; the vector can be chosen such that its sum is the sum of the
absolute values of the matrix. -/
theorem lasso_representation (d : ℕ) (t : Tabu ℕ) (W : ℕ → ℕ → K) :
    ((∃ w, InBox ((cells d).map (bound t (some 0, none)) ++ (cells d).map (bound t (some 0, none))) w ∧
        (∀ i < d, ∀ j < d, splitMatrix d w i j = W i j) ∧
        w.sum = ((cells d).map fun c => |W c.1 c.2|).sum) ↔
      ∀ i < d, ∀ j < d, ¬ Permitted t i j → W i j = 0) := by
  constructor
  · rintro ⟨w, hw, h, -⟩ i hi j hj hp
    obtain ⟨hb1, hb2⟩ := inBox_append hw
    rw [List.length_map, cells_length, ← sq] at hb1 hb2
    rw [← h i hi j hj, splitMatrix, inBox_forbidden hb1 hi hj hp, inBox_forbidden hb2 hi hj hp, sub_zero]
  · intro h
    have hbox : ∀ (V : ℕ → ℕ → K) (l : List (ℕ × ℕ)), (∀ c ∈ l, 0 ≤ V c.1 c.2 ∧
        (¬ Permitted t c.1 c.2 → V c.1 c.2 = 0)) →
        InBox (l.map (bound t (some 0, none))) (l.map fun c => V c.1 c.2) := by
      intro V l hl
      rw [InBox, List.forall₂_map_left_iff, List.forall₂_map_right_iff, List.forall₂_same]
      intro c hc
      obtain ⟨h1, h2⟩ := hl c hc
      by_cases hp : Permitted t c.1 c.2
      · rw [show bound t (some (0 : K), none) c = (some 0, none) from bound_free hp]
        simpa using h1
      · rw [show bound t (some (0 : K), none) c = (some 0, some 0) from bound_zero hp, h2 hp]
        simp
    have hres : ∀ (V : ℕ → ℕ → K) (i j : ℕ), i < d → j < d →
        reshape d ((cells d).map fun c => V c.1 c.2) i j = V i j := by
      intro V i j hi hj
      rw [reshape, List.getD_eq_getElem?_getD, List.getElem?_map, cells_get hi hj]
      rfl
    refine ⟨((cells d).map fun c => max (W c.1 c.2) 0) ++ (cells d).map fun c => max (- W c.1 c.2) 0,
      ?_, ?_, ?_⟩
    · refine List.rel_append (hbox (fun i j => max (W i j) 0) _ ?_) (hbox (fun i j => max (- W i j) 0) _ ?_)
      · intro c hc
        refine ⟨le_max_right _ _, fun hp => ?_⟩
        obtain ⟨h1, h2⟩ := mem_cells.1 (show (c.1, c.2) ∈ cells d from hc)
        rw [h _ h1 _ h2 hp, max_self]
      · intro c hc
        refine ⟨le_max_right _ _, fun hp => ?_⟩
        obtain ⟨h1, h2⟩ := mem_cells.1 (show (c.1, c.2) ∈ cells d from hc)
        rw [h _ h1 _ h2 hp, neg_zero, max_self]
    · intro i hi j hj
      have hlen : (((cells d).map fun c => max (W c.1 c.2) 0)).length = d ^ 2 := by
        rw [List.length_map, cells_length, sq]
      rw [splitMatrix, List.take_left' hlen, List.drop_left' hlen,
        hres (fun i j => max (W i j) 0) i j hi hj, hres (fun i j => max (- W i j) 0) i j hi hj]
      rcases le_total 0 (W i j) with h0 | h0
      · rw [max_eq_left h0, max_eq_right (by linarith), sub_zero]
      · rw [max_eq_right h0, max_eq_left (by linarith), zero_sub, neg_neg]
    · rw [List.sum_append, ← List.sum_map_add]
      congr 1
      apply List.map_congr_left
      intro c _
      rcases le_total 0 (W c.1 c.2) with h0 | h0
      · rw [max_eq_left h0, max_eq_right (by linarith), add_zero, abs_of_nonneg h0]
      · rw [max_eq_right h0, max_eq_left (by linarith), zero_add, abs_of_nonpos h0]

theorem map_reshape {d : ℕ} {w : List K} (h : w.length = d * d) :
    w = (cells d).map fun c => reshape d w c.1 c.2 := by
  apply List.ext_getElem
  · rw [List.length_map, cells_length, h]
  · intro k h1 h2
    have hd : 0 < d := by
      rcases Nat.eq_zero_or_pos d with rfl | hd
      · omega
      · exact hd
    have hq : k / d < d := Nat.div_lt_of_lt_mul (by omega)
    have hr : k % d < d := Nat.mod_lt _ hd
    have hk : k / d * d + k % d = k := Nat.div_add_mod' k d
    have hc := cells_get hq hr
    rw [hk] at hc
    rw [List.getElem_map, (List.getElem?_eq_some_iff.1 hc).2]
    simp only [reshape]
    rw [hk, List.getD_eq_getElem _ _ h1]

/-- The lasso penalty, the sum of a vector within the bounds, is at least the sum of the absolute values of
its matrix. -/
theorem lasso_penalty (d : ℕ) (t : Tabu ℕ) {w : List K}
    (hw : InBox ((cells d).map (bound t (some 0, none)) ++ (cells d).map (bound t (some 0, none))) w) :
    ((cells d).map fun c => |splitMatrix d w c.1 c.2|).sum ≤ w.sum := by
  obtain ⟨hb1, hb2⟩ := inBox_append hw
  rw [List.length_map, cells_length, ← sq] at hb1 hb2
  have key : ∀ v : List K, InBox ((cells d).map (bound t (some 0, none))) v → ∀ i < d, ∀ j < d,
      0 ≤ reshape d v i j := by
    intro v hv i hi j hj
    have hget : ((cells d).map (bound t (some (0 : K), none)))[i * d + j]? =
        some (bound t (some 0, none) (i, j)) := by
      rw [List.getElem?_map, cells_get hi hj]; rfl
    have := (inBox_getD hv hget).1
    by_cases hp : Permitted t i j
    · rw [bound_free hp] at this; exact this 0 rfl
    · rw [bound_zero hp] at this; exact this 0 rfl
  have hlen : ∀ v : List K, InBox ((cells d).map (bound t (some 0, none))) v → v.length = d * d := by
    intro v hv
    have := hv.length_eq
    rw [List.length_map, cells_length] at this
    exact this.symm
  conv_rhs => rw [← List.take_append_drop (d ^ 2) w, List.sum_append, map_reshape (hlen _ hb1),
    map_reshape (hlen _ hb2), ← List.sum_map_add]
  apply List.sum_le_sum
  intro c hc
  obtain ⟨h1, h2⟩ := mem_cells.1 (show (c.1, c.2) ∈ cells d from hc)
  have k1 := key _ hb1 _ h1 _ h2
  have k2 := key _ hb2 _ h1 _ h2
  rw [splitMatrix, abs_le]
  constructor <;> linarith

end

end

end Verif.Notears
