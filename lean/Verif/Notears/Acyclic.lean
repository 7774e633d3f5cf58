import Mathlib.Analysis.Normed.Algebra.MatrixExponential
import Mathlib.LinearAlgebra.Matrix.Hadamard
import Mathlib.Logic.Relation

/-!
# The acyclicity scores of NOTEARS

`expScore` is the function `_h` of `notears.py` and `dynotears.py`, `polyScore` the function `_h_func`
of the pytorch version.  Both are characterised by directed cycles of the weighted graph.
-/

namespace Verif.Notears

open Matrix Finset

section
variable {V : Type} [Fintype V] [DecidableEq V]

/-- The graph with an edge wherever the matrix is not zero has no directed cycle. -/
def NoCycle {K : Type} [Zero K] (W : Matrix V V K) : Prop :=
  ∀ i, ¬ Relation.TransGen (fun a b => W a b ≠ 0) i i

/-- `_h(w) = np.trace(slin.expm(W * W)) - d`: `structure/notears.py:367-379`, `458-470`
and `structure/dynotears.py:393-405`.  `*` is the entrywise product. -/
noncomputable def expScore (W : Matrix V V ℝ) : ℝ :=
  trace (NormedSpace.exp (W ⊙ W)) - Fintype.card V

/-- `_h_func`, on the matrix of squared weights: `M = eye(d) + square_weight_mat / d`,
`E = matrix_power(M, d - 1)`, `h = (E.t() * M).sum() - d`: `structure/pytorch/core.py:415-453`. -/
noncomputable def polyScore (A : Matrix V V ℝ) : ℝ :=
  let M : Matrix V V ℝ := 1 + (Fintype.card V : ℝ)⁻¹ • A
  (∑ i, ∑ j, ((M ^ (Fintype.card V - 1))ᵀ ⊙ M) i j) - Fintype.card V

/-! ### Walks -/

/-- A walk with `k` steps. -/
def Walk (R : V → V → Prop) (k : ℕ) (f : ℕ → V) : Prop := ∀ t < k, R (f t) (f (t + 1))

theorem walk_of_transGen {R : V → V → Prop} {i j : V} (h : Relation.TransGen R i j) :
    ∃ k f, 0 < k ∧ f 0 = i ∧ f k = j ∧ Walk R k f := by
  induction h with
  | @single b h =>
    refine ⟨1, fun t => if t = 0 then i else b, by omega, by simp, by simp, ?_⟩
    intro t ht
    obtain rfl : t = 0 := by omega
    simpa using h
  | @tail b c _ h ih =>
    obtain ⟨k, f, hk, h0, h1, hw⟩ := ih
    refine ⟨k + 1, fun t => if t ≤ k then f t else c, by omega, by simpa using h0, by simp, ?_⟩
    intro t ht
    rcases Nat.lt_succ_iff_lt_or_eq.1 ht with ht | rfl
    · simp only [show t ≤ k by omega, show t + 1 ≤ k by omega, if_true]
      exact hw t ht
    · simp only [le_refl, if_true, show ¬ t + 1 ≤ t by omega, if_false, h1]
      exact h

theorem transGen_of_walk {R : V → V → Prop} {k : ℕ} {f : ℕ → V} (hk : 0 < k) (h : Walk R k f) :
    Relation.TransGen R (f 0) (f k) := by
  induction k with
  | zero => omega
  | succ k ih =>
    rcases Nat.eq_zero_or_pos k with rfl | hk'
    · exact .single (h 0 (by omega))
    · exact .tail (ih hk' fun t ht => h t (by omega)) (h k (by omega))

/-- A relation with a cycle has a cycle through distinct points. -/
theorem simple_cycle {R : V → V → Prop} {i : V} (h : Relation.TransGen R i i) :
    ∃ k f, 0 < k ∧ f k = f 0 ∧ Walk R k f ∧ Set.InjOn f (Set.Iio k) := by
  classical
  have hex : ∃ k, ∃ f : ℕ → V, 0 < k ∧ f k = f 0 ∧ Walk R k f := by
    obtain ⟨k, f, hk, h0, h1, hw⟩ := walk_of_transGen h
    exact ⟨k, f, hk, by rw [h0, h1], hw⟩
  obtain ⟨f, hk, hc, hw⟩ := Nat.find_spec hex
  refine ⟨_, f, hk, hc, hw, ?_⟩
  generalize hn : Nat.find hex = n at *
  have key : ∀ s t, s < t → t < n → f s ≠ f t := by
    intro s t hst htn he
    refine Nat.find_min hex (m := t - s) (by omega) ⟨fun r => f (s + r), by omega, ?_, ?_⟩
    · simp only [Nat.add_zero]
      rw [show s + (t - s) = t by omega, he]
    · intro r hr
      exact hw (s + r) (by omega)
  intro s hs t ht he
  rcases Nat.lt_trichotomy s t with h | h | h
  · exact absurd he (key s t h ht)
  · exact h
  · exact absurd he.symm (key t s h hs)

theorem card_of_injOn {k : ℕ} {f : ℕ → V} (h : Set.InjOn f (Set.Iio k)) : k ≤ Fintype.card V := by
  have := Finset.card_image_of_injOn (s := Finset.range k) (f := f) (by
    intro a ha b hb
    exact h (by simpa using ha) (by simpa using hb))
  rw [Finset.card_range] at this
  rw [← this]
  exact Finset.card_le_univ _

/-! ### Powers of nonnegative matrices -/

theorem pow_entry_nonneg {M : Matrix V V ℝ} (hM : ∀ i j, 0 ≤ M i j) (k : ℕ) (i j : V) :
    0 ≤ (M ^ k) i j := by
  induction k generalizing j with
  | zero => rw [pow_zero, Matrix.one_apply]; split <;> norm_num
  | succ k ih =>
    rw [pow_succ, Matrix.mul_apply]
    exact Finset.sum_nonneg fun l _ => mul_nonneg (ih l) (hM l j)

/-- The weight of a walk is a lower bound for the entry of the power. -/
theorem prod_le_pow {M : Matrix V V ℝ} (hM : ∀ i j, 0 ≤ M i j) (k : ℕ) (f : ℕ → V) :
    ∏ t ∈ Finset.range k, M (f t) (f (t + 1)) ≤ (M ^ k) (f 0) (f k) := by
  induction k with
  | zero => simp
  | succ k ih =>
    rw [Finset.prod_range_succ, pow_succ, Matrix.mul_apply]
    refine le_trans (mul_le_mul_of_nonneg_right ih (hM _ _)) ?_
    exact Finset.single_le_sum (f := fun l => (M ^ k) (f 0) l * M l (f (k + 1)))
      (fun l _ => mul_nonneg (pow_entry_nonneg hM k _ _) (hM _ _)) (Finset.mem_univ (f k))

theorem walk_of_pow_pos {M : Matrix V V ℝ} (hM : ∀ i j, 0 ≤ M i j) {k : ℕ} {i j : V}
    (h : (M ^ k) i j ≠ 0) : ∃ f, f 0 = i ∧ f k = j ∧ Walk (fun a b => M a b ≠ 0) k f := by
  induction k generalizing j with
  | zero =>
    rw [pow_zero, Matrix.one_apply] at h
    have : i = j := by by_contra hn; simp [hn] at h
    exact ⟨fun _ => i, rfl, this, fun t ht => by omega⟩
  | succ k ih =>
    rw [pow_succ, Matrix.mul_apply] at h
    obtain ⟨l, -, hl⟩ := Finset.exists_ne_zero_of_sum_ne_zero h
    obtain ⟨f, h0, h1, hw⟩ := ih (left_ne_zero_of_mul hl)
    refine ⟨fun t => if t ≤ k then f t else j, by simpa using h0, by simp, ?_⟩
    intro t ht
    rcases Nat.lt_succ_iff_lt_or_eq.1 ht with ht | rfl
    · simp only [show t ≤ k by omega, show t + 1 ≤ k by omega, if_true]
      exact hw t ht
    · simp only [le_refl, if_true, show ¬ t + 1 ≤ t by omega, if_false, h1]
      exact right_ne_zero_of_mul hl

theorem trace_pow_nonneg {M : Matrix V V ℝ} (hM : ∀ i j, 0 ≤ M i j) (k : ℕ) : 0 ≤ trace (M ^ k) :=
  Finset.sum_nonneg fun _ _ => pow_entry_nonneg hM _ _ _

theorem trace_pow_eq_zero {M : Matrix V V ℝ} (hM : ∀ i j, 0 ≤ M i j) (h : NoCycle M) {k : ℕ}
    (hk : 0 < k) : trace (M ^ k) = 0 := by
  apply Finset.sum_eq_zero
  intro i _
  by_contra hn
  obtain ⟨f, h0, h1, hw⟩ := walk_of_pow_pos hM hn
  have := transGen_of_walk hk hw
  rw [h0, h1] at this
  exact h i this

/-- The trace of a power is at least the weight of a cycle through distinct points, counted once for
every starting point. -/
theorem cycle_le_trace {M : Matrix V V ℝ} (hM : ∀ i j, 0 ≤ M i j) {k : ℕ} {f : ℕ → V}
    (hc : f k = f 0) (hinj : Set.InjOn f (Set.Iio k)) :
    k * ∏ t ∈ Finset.range k, M (f t) (f (t + 1)) ≤ trace (M ^ k) := by
  classical
  have hs : ∀ s < k, ∏ t ∈ Finset.range k, M (f t) (f (t + 1)) ≤ (M ^ k) (f s) (f s) := by
    intro s hs
    let g : ℕ → V := fun t => if s + t ≤ k then f (s + t) else f (s + t - k)
    have hg0 : g 0 = f s := by simp [g, hs.le]
    have hgk : g k = f s := by
      simp only [g]
      split
      · have : s = 0 := by omega
        subst this
        simp [hc]
      · rw [Nat.add_sub_cancel]
    have := prod_le_pow hM k g
    rw [hg0, hgk] at this
    refine le_of_eq_of_le ?_ this
    have hk : k = (k - s) + s := by omega
    conv_rhs => rw [hk, Finset.prod_range_add]
    conv_lhs => rw [show k = s + (k - s) by omega, Finset.prod_range_add]
    rw [mul_comm]
    congr 1
    · apply Finset.prod_congr rfl
      intro t ht
      rw [Finset.mem_range] at ht
      simp only [g, show s + t ≤ k by omega, if_true, show s + (t + 1) ≤ k by omega]
      rfl
    · apply Finset.prod_congr rfl
      intro t ht
      rw [Finset.mem_range] at ht
      have h2 : g (k - s + t + 1) = f (t + 1) := by
        simp only [g]
        rw [if_neg (by omega)]
        congr 1
        omega
      have h1 : g (k - s + t) = f t := by
        simp only [g]
        split
        · have : t = 0 := by omega
          subst this
          rw [show s + (k - s + 0) = k by omega, hc]
        · congr 1
          omega
      rw [h1, h2]
  have himg : ∑ i ∈ (Finset.range k).image f, (M ^ k) i i ≤ trace (M ^ k) :=
    Finset.sum_le_sum_of_subset_of_nonneg (Finset.subset_univ _)
      fun i _ _ => pow_entry_nonneg hM _ _ _
  rw [Finset.sum_image (by
    intro a ha b hb
    exact hinj (by simpa using ha) (by simpa using hb))] at himg
  refine le_trans ?_ himg
  rw [← nsmul_eq_mul, ← Finset.card_range k, Finset.card_range k]
  conv_lhs => rw [← Finset.card_range k, ← Finset.sum_const]
  rw [Finset.card_range]
  exact Finset.sum_le_sum fun s hs' => hs s (Finset.mem_range.1 hs')

theorem noCycle_of_traces {M : Matrix V V ℝ} (hM : ∀ i j, 0 ≤ M i j)
    (h : ∀ k, 0 < k → k ≤ Fintype.card V → trace (M ^ k) = 0) : NoCycle M := by
  intro i hi
  obtain ⟨k, f, hk, hc, hw, hinj⟩ := simple_cycle hi
  have h1 := cycle_le_trace hM hc hinj
  rw [h k hk (card_of_injOn hinj)] at h1
  have h2 : 0 < ∏ t ∈ Finset.range k, M (f t) (f (t + 1)) := by
    apply Finset.prod_pos
    intro t ht
    exact lt_of_le_of_ne (hM _ _) (Ne.symm (hw t (Finset.mem_range.1 ht)))
  have h3 : (0 : ℝ) < k := by exact_mod_cast hk
  nlinarith [mul_pos h3 h2]

/-! ### The exponential score -/

section
attribute [local instance] Matrix.linftyOpNormedRing Matrix.linftyOpNormedAlgebra

theorem trace_exp_hasSum (M : Matrix V V ℝ) :
    HasSum (fun k : ℕ => trace (M ^ k) / (k.factorial : ℝ)) (trace (NormedSpace.exp M)) := by
  have h := NormedSpace.exp_series_hasSum_exp' (𝕂 := ℝ) M
  have h' := h.map (Matrix.traceAddMonoidHom V ℝ)
    (by
      change Continuous fun A : Matrix V V ℝ => trace A
      exact Continuous.matrix_trace continuous_id)
  convert h' using 1
  · funext k
    change _ = trace ((k.factorial : ℝ)⁻¹ • M ^ k)
    rw [Matrix.trace_smul, smul_eq_mul, div_eq_inv_mul]
  · rfl

end

theorem sq_nonneg_entries (W : Matrix V V ℝ) (i j : V) : 0 ≤ (W ⊙ W) i j := by
  rw [Matrix.hadamard_apply]
  exact mul_self_nonneg _

theorem noCycle_sq (W : Matrix V V ℝ) : NoCycle (W ⊙ W) ↔ NoCycle W := by
  unfold NoCycle
  simp only [Matrix.hadamard_apply, ne_eq, mul_self_eq_zero]

/-- Each power contributes to the score. -/
theorem trace_pow_le_expScore (W : Matrix V V ℝ) {k : ℕ} (hk : 0 < k) :
    trace ((W ⊙ W) ^ k) / (k.factorial : ℝ) ≤ expScore W := by
  have h := trace_exp_hasSum (W ⊙ W)
  have hpos : ∀ k : ℕ, 0 ≤ trace ((W ⊙ W) ^ k) / (k.factorial : ℝ) := fun k =>
    div_nonneg (trace_pow_nonneg (sq_nonneg_entries W) k) (by positivity)
  have := h.summable.sum_le_tsum {0, k} (fun i _ => hpos i)
  rw [h.tsum_eq, Finset.sum_pair (by omega)] at this
  rw [expScore]
  simp only [pow_zero, Nat.factorial_zero, Nat.cast_one, div_one, Matrix.trace_one] at this
  linarith

/-- **C40**: the score is never negative, and it is zero exactly if the graph has no cycle. -/
theorem expScore_nonneg (W : Matrix V V ℝ) : 0 ≤ expScore W :=
  le_trans (div_nonneg (trace_pow_nonneg (sq_nonneg_entries W) 1) (by positivity))
    (trace_pow_le_expScore W one_pos)

theorem expScore_eq_zero_iff (W : Matrix V V ℝ) : expScore W = 0 ↔ NoCycle W := by
  rw [← noCycle_sq]
  constructor
  · intro h
    apply noCycle_of_traces (sq_nonneg_entries W)
    intro k hk _
    have h1 := trace_pow_le_expScore W hk
    have h2 := trace_pow_nonneg (sq_nonneg_entries W) k
    rw [h, div_le_iff₀ (by positivity), zero_mul] at h1
    exact le_antisymm h1 h2
  · intro h
    have hs := trace_exp_hasSum (W ⊙ W)
    have h1 := hasSum_single (f := fun k : ℕ => trace ((W ⊙ W) ^ k) / (k.factorial : ℝ)) 0
      (fun k hk => by
        rw [trace_pow_eq_zero (sq_nonneg_entries W) h (Nat.pos_of_ne_zero hk), zero_div])
    have := hs.unique h1
    rw [expScore, this]
    simp [Matrix.trace_one]

/-- A small score allows only cycles with a small product of weights: for a cycle through `k` distinct
nodes the product of the squared weights is at most `(k - 1)!` times the score. -/
theorem cycle_weight_le (W : Matrix V V ℝ) {k : ℕ} {f : ℕ → V} (hk : 0 < k) (hc : f k = f 0)
    (hinj : Set.InjOn f (Set.Iio k)) :
    ∏ t ∈ Finset.range k, (W (f t) (f (t + 1))) ^ 2 ≤ ((k - 1).factorial : ℝ) * expScore W := by
  have h1 := cycle_le_trace (sq_nonneg_entries W) hc hinj
  have h2 := trace_pow_le_expScore W hk
  rw [div_le_iff₀ (by positivity)] at h2
  have h3 : (k.factorial : ℝ) = k * ((k - 1).factorial : ℝ) := by
    rw [← Nat.mul_factorial_pred (by omega)]
    push_cast
    rfl
  rw [h3] at h2
  have h4 : (0 : ℝ) < k := by exact_mod_cast hk
  have h5 : ∏ t ∈ Finset.range k, (W (f t) (f (t + 1))) ^ 2 =
      ∏ t ∈ Finset.range k, (W ⊙ W) (f t) (f (t + 1)) := by
    apply Finset.prod_congr rfl
    intro t _
    rw [Matrix.hadamard_apply, sq]
  rw [h5]
  have := h1.trans h2
  have h6 : (k : ℝ) * ∏ t ∈ Finset.range k, (W ⊙ W) (f t) (f (t + 1)) ≤
      k * (((k - 1).factorial : ℝ) * expScore W) := by
    calc _ ≤ _ := this
      _ = _ := by ring
  exact le_of_mul_le_mul_left h6 h4

/-! ### The polynomial score -/

theorem polyScore_eq (A : Matrix V V ℝ) [Nonempty V] :
    polyScore A = trace ((1 + (Fintype.card V : ℝ)⁻¹ • A) ^ Fintype.card V) - Fintype.card V := by
  rw [polyScore]
  congr 1
  have : Fintype.card V = Fintype.card V - 1 + 1 := by
    have := Fintype.card_pos (α := V)
    omega
  generalize (1 + (Fintype.card V : ℝ)⁻¹ • A) = M
  conv_rhs => rw [this, pow_succ]
  rw [Matrix.sum_hadamard_eq, ← Matrix.transpose_mul, Matrix.trace_transpose, Matrix.trace_mul_comm]

theorem polyScore_expand (A : Matrix V V ℝ) [Nonempty V] :
    polyScore A = ∑ k ∈ Finset.range (Fintype.card V),
      ((Fintype.card V).choose (k + 1) : ℝ) * ((Fintype.card V : ℝ)⁻¹ ^ (k + 1) * trace (A ^ (k + 1))) := by
  rw [polyScore_eq, add_comm, (Commute.one_right _).add_pow, Finset.sum_range_succ', Matrix.trace_add,
    Matrix.trace_sum]
  simp only [one_pow, mul_one, pow_zero, Nat.choose_zero_right, Nat.cast_one, Matrix.trace_one]
  rw [add_sub_cancel_right]
  apply Finset.sum_congr rfl
  intro k _
  rw [smul_pow, Matrix.smul_mul, Matrix.trace_smul, ← nsmul_eq_mul', Matrix.trace_smul, nsmul_eq_mul,
    smul_eq_mul]
  ring

/-- **C41**: the polynomial score of a matrix without negative entries is never negative, and it is zero
exactly if the graph has no cycle. -/
theorem polyScore_nonneg (A : Matrix V V ℝ) [Nonempty V] (hA : ∀ i j, 0 ≤ A i j) : 0 ≤ polyScore A := by
  rw [polyScore_expand]
  apply Finset.sum_nonneg
  intro k _
  have := trace_pow_nonneg hA (k + 1)
  positivity

theorem polyScore_eq_zero_iff (A : Matrix V V ℝ) [Nonempty V] (hA : ∀ i j, 0 ≤ A i j) :
    polyScore A = 0 ↔ NoCycle A := by
  have hcard : (0 : ℝ) < Fintype.card V := by exact_mod_cast Fintype.card_pos (α := V)
  rw [polyScore_expand, Finset.sum_eq_zero_iff_of_nonneg]
  · constructor
    · intro h
      apply noCycle_of_traces hA
      intro k hk hle
      obtain ⟨k, rfl⟩ : ∃ m, k = m + 1 := ⟨k - 1, by omega⟩
      have := h k (Finset.mem_range.2 (by omega))
      have h1 : (0 : ℝ) < ((Fintype.card V).choose (k + 1) : ℝ) := by
        exact_mod_cast Nat.choose_pos hle
      have h2 : (0 : ℝ) < (Fintype.card V : ℝ)⁻¹ ^ (k + 1) := by positivity
      rcases mul_eq_zero.1 this with h3 | h3
      · exact absurd h3 h1.ne'
      · rcases mul_eq_zero.1 h3 with h3 | h3
        · exact absurd h3 h2.ne'
        · exact h3
    · intro h k _
      rw [trace_pow_eq_zero hA h (Nat.succ_pos k)]
      ring
  · intro k _
    have := trace_pow_nonneg hA (k + 1)
    positivity

end

end Verif.Notears
