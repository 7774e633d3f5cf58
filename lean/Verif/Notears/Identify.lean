import Verif.Notears.Acyclic
import Mathlib.Analysis.Matrix.Spectrum
import Mathlib.Analysis.Matrix.PosDef
import Mathlib.Analysis.Matrix.Order
import Mathlib.Analysis.SpecialFunctions.Log.Basic
import Mathlib.Topology.Instances.Matrix
import Mathlib.Order.WellFounded

/-!
# Matrices of acyclic weights (C125)

The linear algebra behind identification: if `V` and `W` are acyclic, `1 - W = (1 - V) T` has `det T = 1`, hence `T` has at least the
sum of squares of the identity, with equality only if `W = V`.
-/

namespace Verif.Notears

open Matrix Finset

section
variable {V : Type} [Fintype V] [DecidableEq V]

theorem NoCycle.diag {W : Matrix V V ℝ} (h : NoCycle W) (i : V) : W i i = 0 := by
  by_contra hne
  exact h i (Relation.TransGen.single hne)

theorem NoCycle.det {W : Matrix V V ℝ} (h : NoCycle W) : det (1 - W) = 1 := by
  rw [det_apply, Finset.sum_eq_single (1 : Equiv.Perm V)]
  · simp [h.diag]
  · intro σ _ hσ
    have : ∃ i, (1 - W) (σ i) i = 0 := by
      by_contra hne
      push Not at hne
      obtain ⟨i, hi⟩ : ∃ i, σ i ≠ i := by
        by_contra hc
        push Not at hc
        exact hσ (Equiv.ext hc)
      have hmoved : ∀ t : ℕ, σ ((σ⁻¹ ^ t) i) ≠ (σ⁻¹ ^ t) i := by
        intro t ht
        have h1 : σ * σ⁻¹ ^ t = σ⁻¹ ^ t * σ := by
          rw [inv_pow]
          exact (Commute.refl σ).pow_right t |>.inv_right.eq
        have h2 : (σ⁻¹ ^ t) (σ i) = (σ⁻¹ ^ t) i := by
          rw [← Equiv.Perm.mul_apply, ← h1, Equiv.Perm.mul_apply, ht]
        exact hi ((σ⁻¹ ^ t).injective h2)
      have hw : Walk (fun a b => W a b ≠ 0) (orderOf σ) fun t => (σ⁻¹ ^ t) i := by
        intro t _
        have h1 := hne ((σ⁻¹ ^ (t + 1)) i)
        have h2 := hmoved (t + 1)
        have h3 : σ ((σ⁻¹ ^ (t + 1)) i) = (σ⁻¹ ^ t) i := by
          rw [pow_succ', Equiv.Perm.mul_apply]
          exact σ.apply_symm_apply _
        rw [h3] at h1 h2
        rw [Matrix.sub_apply, Matrix.one_apply_ne h2] at h1
        exact fun h0 => h1 (by rw [h0, sub_zero])
      have h4 := transGen_of_walk (orderOf_pos σ) hw
      simp only [pow_zero, inv_pow, pow_orderOf_eq_one, inv_one, Equiv.Perm.one_apply] at h4
      exact h i h4
    obtain ⟨i, hi⟩ := this
    have h0 : ∏ i, (1 - W) (σ i) i = 0 := Finset.prod_eq_zero (f := fun i => (1 - W) (σ i) i) (Finset.mem_univ i) hi
    rw [h0, smul_zero]
  · simp

/-- Every nonempty set of nodes has one without edges into the set. -/
theorem NoCycle.sink {W : Matrix V V ℝ} (h : NoCycle W) {A : Finset V} (hA : A.Nonempty) : ∃ j ∈ A, ∀ l ∈ A, W j l = 0 := by
  let r : V → V → Prop := fun a b => Relation.TransGen (fun a b => W a b ≠ 0) b a
  haveI : IsTrans V r := ⟨fun a b c h1 h2 => h2.trans h1⟩
  haveI : Std.Irrefl r := ⟨fun a => h a⟩
  have hwf : WellFounded r := Finite.wellFounded_of_trans_of_irrefl r
  obtain ⟨j, hj, hmin⟩ := hwf.has_min (A : Set V) hA
  refine ⟨j, hj, fun l hl => ?_⟩
  by_contra hne
  exact hmin l hl (Relation.TransGen.single hne)

/-- Weights without cycles are determined by the matrix `(1 - W) (1 - W)ᵀ`. -/
theorem unique_of_gram {W U : Matrix V V ℝ} (hW : NoCycle W) (hU : ∀ i, U i i = 0)
    (h : (1 - W) * (1 - W)ᵀ = (1 - U) * (1 - U)ᵀ) : W = U := by
  have key : ∀ n : ℕ, ∀ A : Finset V, A.card = n → (∀ j ∈ A, ∀ k ∈ A,
      ∑ l ∈ A, (1 - W) j l * (1 - W) k l = ∑ l ∈ A, (1 - U) j l * (1 - U) k l) → ∀ j ∈ A, ∀ l ∈ A, W j l = U j l := by
    intro n
    induction n with
    | zero =>
      intro A hA _ j hj
      rw [Finset.card_eq_zero.1 hA] at hj
      simp at hj
    | succ n ih =>
      intro A hA hs
      obtain ⟨s, hsA, hs0⟩ := hW.sink (A := A) (Finset.card_pos.1 (by omega))
      have hWss : (1 - W) s s = 1 := by rw [Matrix.sub_apply, Matrix.one_apply_eq, hW.diag, sub_zero]
      have hUss : (1 - U) s s = 1 := by rw [Matrix.sub_apply, Matrix.one_apply_eq, hU, sub_zero]
      have hWs : ∀ l ∈ A, l ≠ s → (1 - W) s l = 0 := fun l hl hne => by
        rw [Matrix.sub_apply, Matrix.one_apply_ne (Ne.symm hne), hs0 l hl, sub_zero]
      have hUs : ∀ l ∈ A, l ≠ s → (1 - U) s l = 0 := by
        have h1 := hs s hsA s hsA
        rw [Finset.sum_eq_single s (fun l hl hne => by rw [hWs l hl hne, zero_mul]) (fun hn => absurd hsA hn), hWss,
          ← Finset.add_sum_erase A _ hsA, hUss] at h1
        have h2 : ∑ l ∈ A.erase s, (1 - U) s l * (1 - U) s l = 0 := by linarith
        rw [Finset.sum_eq_zero_iff_of_nonneg fun l _ => mul_self_nonneg _] at h2
        exact fun l hl hne => mul_self_eq_zero.1 (h2 l (Finset.mem_erase.2 ⟨hne, hl⟩))
      have hcol : ∀ k ∈ A, (1 - W) k s = (1 - U) k s := by
        intro k hk
        have h1 := hs s hsA k hk
        rw [Finset.sum_eq_single s (fun l hl hne => by rw [hWs l hl hne, zero_mul]) (fun hn => absurd hsA hn),
          Finset.sum_eq_single s (fun l hl hne => by rw [hUs l hl hne, zero_mul]) (fun hn => absurd hsA hn), hWss, hUss,
          one_mul, one_mul] at h1
        exact h1
      have hrec := ih (A.erase s) (by rw [Finset.card_erase_of_mem hsA]; omega) (by
        intro j hj k hk
        have h1 := hs j (Finset.mem_of_mem_erase hj) k (Finset.mem_of_mem_erase hk)
        rw [← Finset.add_sum_erase A _ hsA, ← Finset.add_sum_erase A _ hsA, hcol j (Finset.mem_of_mem_erase hj),
          hcol k (Finset.mem_of_mem_erase hk)] at h1
        exact add_left_cancel h1)
      have e : ∀ a b : V, (1 - W) a b = (1 - U) a b → W a b = U a b := fun a b hab => by
        rw [Matrix.sub_apply, Matrix.sub_apply] at hab
        linarith
      intro j hj l hl
      by_cases hls : l = s
      · rw [hls]; exact e _ _ (hcol j hj)
      · by_cases hjs : j = s
        · rw [hjs]; exact e _ _ ((hWs l hl hls).trans (hUs l hl hls).symm)
        · exact hrec j (Finset.mem_erase.2 ⟨hjs, hj⟩) l (Finset.mem_erase.2 ⟨hls, hl⟩)
  funext j l
  refine key _ Finset.univ rfl (fun j _ k _ => ?_) j (Finset.mem_univ _) l (Finset.mem_univ _)
  have := congrFun (congrFun h j) k
  rw [Matrix.mul_apply, Matrix.mul_apply] at this
  exact this

/-- The sum of the squares of the entries of a matrix with determinant 1 or -1 is at least its size, with equality only for
orthogonal matrices. -/
theorem squares_of_det {T : Matrix V V ℝ} (hT : T.det ^ 2 = 1) : (Fintype.card V : ℝ) ≤ ∑ i, ∑ j, T i j ^ 2 ∧
    (∑ i, ∑ j, T i j ^ 2 = Fintype.card V → T * Tᵀ = 1) := by
  have hN : (Tᴴ * T).PosSemidef := posSemidef_conjTranspose_mul_self T
  have hN' : Tᴴ * T = Tᵀ * T := by rw [conjTranspose_eq_transpose_of_trivial]
  have htr : trace (Tᴴ * T) = ∑ i, ∑ j, T i j ^ 2 := by
    rw [hN', trace, Finset.sum_comm]
    refine Finset.sum_congr rfl fun j _ => ?_
    rw [diag_apply, mul_apply]
    exact Finset.sum_congr rfl fun i _ => by rw [transpose_apply, sq]
  have hdet : det (Tᴴ * T) = 1 := by rw [hN', det_mul, det_transpose, ← sq, hT]
  have hpos : ∀ i, 0 < hN.1.eigenvalues i := by
    intro i
    refine lt_of_le_of_ne (hN.eigenvalues_nonneg i) fun h0 => ?_
    rw [hN.1.det_eq_prod_eigenvalues, Finset.prod_eq_zero (Finset.mem_univ i)] at hdet
    · exact zero_ne_one hdet
    · rw [← h0]; rfl
  have hsum : trace (Tᴴ * T) = ∑ i, hN.1.eigenvalues i := by
    rw [hN.1.trace_eq_sum_eigenvalues]; rfl
  have hprod : ∏ i, hN.1.eigenvalues i = 1 := by
    rw [← hdet, hN.1.det_eq_prod_eigenvalues]; rfl
  have hlog : ∑ i, Real.log (hN.1.eigenvalues i) = 0 := by
    rw [← Real.log_prod (fun i _ => (hpos i).ne'), hprod, Real.log_one]
  have hle : ∀ i ∈ (Finset.univ : Finset V), Real.log (hN.1.eigenvalues i) ≤ hN.1.eigenvalues i - 1 := fun i _ =>
    Real.log_le_sub_one_of_pos (hpos i)
  have hcard : ∑ i, (hN.1.eigenvalues i - 1) = (∑ i, ∑ j, T i j ^ 2) - Fintype.card V := by
    rw [Finset.sum_sub_distrib, ← hsum, htr]
    simp
  constructor
  · have := Finset.sum_le_sum hle
    rw [hlog, hcard] at this
    linarith
  · intro heq
    have h1 : ∀ i, hN.1.eigenvalues i = 1 := by
      intro i
      by_contra hne
      have := Finset.sum_lt_sum hle ⟨i, Finset.mem_univ i, Real.log_lt_sub_one_of_pos (hpos i) hne⟩
      rw [hlog, hcard, heq, sub_self] at this
      exact lt_irrefl _ this
    have h2 : Tᴴ * T = 1 := by
      rw [hN.1.spectral_theorem, show (RCLike.ofReal ∘ hN.1.eigenvalues : V → ℝ) = fun _ => 1 from
        funext fun i => h1 i, diagonal_one, map_one]
    rw [hN'] at h2
    exact mul_eq_one_comm.1 h2

/-- If `U` and `W` have no cycles and `1 - W = (1 - U) T`. -/
theorem squares_of_noCycle {U W T : Matrix V V ℝ} (hU : NoCycle U) (hW : NoCycle W) (hT : 1 - W = (1 - U) * T) :
    (Fintype.card V : ℝ) ≤ ∑ i, ∑ j, T i j ^ 2 ∧ (∑ i, ∑ j, T i j ^ 2 = Fintype.card V ↔ W = U) := by
  have hdet : T.det = 1 := by
    have := congrArg det hT
    rw [det_mul, hU.det, hW.det, one_mul] at this
    exact this.symm
  have h := squares_of_det (T := T) (by rw [hdet, one_pow])
  refine ⟨h.1, fun heq => ?_, fun heq => ?_⟩
  · refine unique_of_gram hW hU.diag ?_
    rw [hT, transpose_mul, Matrix.mul_assoc, ← Matrix.mul_assoc T, h.2 heq, Matrix.one_mul]
  · subst heq
    have hu : IsUnit (1 - W) := by rw [isUnit_iff_isUnit_det, hW.det]; exact isUnit_one
    have : T = 1 := by
      have h1 : (1 - W) * T = (1 - W) * 1 := by rw [Matrix.mul_one, ← hT]
      exact hu.mul_left_cancel h1
    rw [this]
    simp [Matrix.one_apply]

theorem expScore_continuous : Continuous (expScore : Matrix V V ℝ → ℝ) := by
  letI : NormedRing (Matrix V V ℝ) := Matrix.linftyOpNormedRing
  letI : NormedAlgebra ℝ (Matrix V V ℝ) := Matrix.linftyOpNormedAlgebra
  letI : NormedAlgebra ℚ (Matrix V V ℝ) := NormedAlgebra.restrictScalars ℚ ℝ _
  have h1 : Continuous fun W : Matrix V V ℝ => NormedSpace.exp (W ⊙ W) :=
    (NormedSpace.exp_continuous (𝔸 := Matrix V V ℝ)).comp
      (continuous_matrix fun i j => by
        simp only [hadamard_apply]
        exact (continuous_id.matrix_elem i j).mul (continuous_id.matrix_elem i j))
  exact (Continuous.matrix_trace h1).sub continuous_const

/-- Weights that fit almost as well as `U` and whose acyclicity score is small are close to `U`.  `S` is any continuous score that is
positive if there are cycles. -/
theorem close_of_continuous {S : Matrix V V ℝ → ℝ} (hS : Continuous S) (hS0 : ∀ W, S W ≤ 0 → NoCycle W) {U : Matrix V V ℝ}
    (hU : NoCycle U) {ε : ℝ} (hε : 0 < ε) : ∃ δ > 0, ∀ W T : Matrix V V ℝ,
    1 - W = (1 - U) * T → ∑ i, ∑ j, T i j ^ 2 ≤ Fintype.card V + δ → S W ≤ δ → ∀ i j, |W i j - U i j| < ε := by
  let φ : Matrix V V ℝ → Matrix V V ℝ := fun T => 1 - (1 - U) * T
  have hφ : Continuous φ := continuous_const.sub (continuous_const.matrix_mul continuous_id)
  let q : Matrix V V ℝ → ℝ := fun T => ∑ i, ∑ j, T i j ^ 2
  have hq : Continuous q :=
    continuous_finset_sum _ fun i _ => continuous_finset_sum _ fun j _ => (continuous_id.matrix_elem i j).pow 2
  let B : Set (Matrix V V ℝ) := {T | ∀ i j, T i j ∈ Set.Icc (-(1 + (Fintype.card V : ℝ))) (1 + Fintype.card V)}
  have hB : IsCompact B := by
    have : B = Set.pi Set.univ fun _ => Set.pi Set.univ fun _ => Set.Icc (-(1 + (Fintype.card V : ℝ))) (1 + Fintype.card V) := by
      ext T
      exact ⟨fun h i _ j _ => h i j, fun h i j => h i trivial j trivial⟩
    rw [this]
    exact isCompact_univ_pi fun _ => isCompact_univ_pi fun _ => isCompact_Icc
  let C : Set (Matrix V V ℝ) := {T | T ∈ B ∧ ∃ i j, ε ≤ |φ T i j - U i j|}
  have hC : IsCompact C := by
    have h2 : IsClosed (⋃ i, ⋃ j, {T : Matrix V V ℝ | ε ≤ |φ T i j - U i j|}) :=
      isClosed_iUnion_of_finite fun i => isClosed_iUnion_of_finite fun j =>
        isClosed_le continuous_const ((hφ.matrix_elem i j).sub continuous_const).abs
    have : C = B ∩ ⋃ i, ⋃ j, {T : Matrix V V ℝ | ε ≤ |φ T i j - U i j|} := by
      ext T
      refine ⟨fun h => ⟨h.1, ?_⟩, fun h => ⟨h.1, ?_⟩⟩
      · obtain ⟨i, j, hij⟩ := h.2
        exact Set.mem_iUnion.2 ⟨i, Set.mem_iUnion.2 ⟨j, hij⟩⟩
      · obtain ⟨i, hi⟩ := Set.mem_iUnion.1 h.2
        obtain ⟨j, hj⟩ := Set.mem_iUnion.1 hi
        exact ⟨i, j, hj⟩
    rw [this]
    exact hB.inter_right h2
  let m : Matrix V V ℝ → ℝ := fun T => max (q T - Fintype.card V) (S (φ T))
  have hm : Continuous m := (hq.sub continuous_const).max (hS.comp hφ)
  have hpos : ∀ T ∈ C, 0 < m T := by
    rintro T ⟨-, i, j, hij⟩
    by_contra hle
    push Not at hle
    have h1 : q T - Fintype.card V ≤ 0 := (le_max_left _ _).trans hle
    have h2 : S (φ T) ≤ 0 := (le_max_right _ _).trans hle
    have hW := hS0 _ h2
    have hT : 1 - φ T = (1 - U) * T := sub_sub_cancel _ _
    have h := squares_of_noCycle hU hW hT
    have : φ T = U := h.2.1 (le_antisymm (by change q T ≤ _; linarith) h.1)
    rw [this, sub_self, abs_zero] at hij
    linarith
  have hmem : ∀ W T : Matrix V V ℝ, 1 - W = (1 - U) * T → ∑ i, ∑ j, T i j ^ 2 ≤ (Fintype.card V : ℝ) + 1 →
      (∃ i j, ε ≤ |W i j - U i j|) → T ∈ C ∧ φ T = W := by
    intro W T hT hsq hne
    have hW : φ T = W := by change 1 - (1 - U) * T = W; rw [← hT, sub_sub_cancel]
    refine ⟨⟨fun i j => ?_, by rw [hW]; exact hne⟩, hW⟩
    have h1 : T i j ^ 2 ≤ (Fintype.card V : ℝ) + 1 :=
      ((Finset.single_le_sum (f := fun j => T i j ^ 2) (fun j _ => sq_nonneg _) (Finset.mem_univ j)).trans
        (Finset.single_le_sum (f := fun i => ∑ j, T i j ^ 2) (fun i _ => Finset.sum_nonneg fun j _ => sq_nonneg _)
          (Finset.mem_univ i))).trans hsq
    have h0 : (0 : ℝ) ≤ Fintype.card V := Nat.cast_nonneg _
    rw [Set.mem_Icc, ← abs_le]
    exact abs_le_of_sq_le_sq (by nlinarith) (by linarith)
  rcases C.eq_empty_or_nonempty with he | hne
  · refine ⟨1, one_pos, fun W T hT hsq _ => ?_⟩
    by_contra hn
    push Not at hn
    have := (hmem W T hT hsq hn).1
    rw [he] at this
    exact this
  · obtain ⟨T0, hT0, hmin⟩ := hC.exists_isMinOn hne hm.continuousOn
    refine ⟨min 1 (m T0 / 2), lt_min one_pos (half_pos (hpos T0 hT0)), fun W T hT hsq hsc => ?_⟩
    by_contra hn
    push Not at hn
    have hδ1 := min_le_left (1 : ℝ) (m T0 / 2)
    have hδ2 := min_le_right (1 : ℝ) (m T0 / 2)
    obtain ⟨h1, h2⟩ := hmem W T hT (by linarith) hn
    have h3 := isMinOn_iff.1 hmin T h1
    have h4 : m T ≤ m T0 / 2 := max_le (by change (∑ i, ∑ j, T i j ^ 2) - _ ≤ _; linarith) (by rw [h2]; linarith)
    linarith [hpos T0 hT0]

theorem noCycle_of_expScore (W : Matrix V V ℝ) (h : expScore W ≤ 0) : NoCycle W :=
  (expScore_eq_zero_iff _).1 (le_antisymm h (expScore_nonneg _))

/-- Weights that fit almost as well as `U` and whose acyclicity score is small are close to `U`. -/
theorem close_of_score {U : Matrix V V ℝ} (hU : NoCycle U) {ε : ℝ} (hε : 0 < ε) : ∃ δ > 0, ∀ W T : Matrix V V ℝ,
    1 - W = (1 - U) * T → ∑ i, ∑ j, T i j ^ 2 ≤ Fintype.card V + δ → expScore W ≤ δ → ∀ i j, |W i j - U i j| < ε :=
  close_of_continuous expScore_continuous noCycle_of_expScore hU hε

theorem polyScore_continuous : Continuous fun W : Matrix V V ℝ => polyScore (W ⊙ W) := by
  have h0 : Continuous fun W : Matrix V V ℝ => W ⊙ W := continuous_matrix fun i j => by
    simp only [hadamard_apply]
    exact (continuous_id.matrix_elem i j).mul (continuous_id.matrix_elem i j)
  have h1 : Continuous fun W : Matrix V V ℝ => 1 + (Fintype.card V : ℝ)⁻¹ • (W ⊙ W) :=
    continuous_const.add (h0.const_smul (Fintype.card V : ℝ)⁻¹)
  unfold polyScore
  refine Continuous.sub (continuous_finset_sum _ fun i _ => continuous_finset_sum _ fun j _ => ?_) continuous_const
  simp only [hadamard_apply, transpose_apply]
  exact ((h1.pow _).matrix_elem j i).mul (h1.matrix_elem i j)

theorem noCycle_of_polyScore (W : Matrix V V ℝ) (h : polyScore (W ⊙ W) ≤ 0) : NoCycle W := by
  rcases isEmpty_or_nonempty V with he | he
  · exact fun i => (he.false i).elim
  have hn : ∀ i j, 0 ≤ (W ⊙ W) i j := fun i j => mul_self_nonneg _
  have := (polyScore_eq_zero_iff (W ⊙ W) hn).1 (le_antisymm h (polyScore_nonneg _ hn))
  unfold NoCycle at this ⊢
  have hr : (fun i j => (W ⊙ W) i j ≠ 0) = fun i j => W i j ≠ 0 := by
    funext i j
    rw [hadamard_apply, ne_eq, mul_self_eq_zero]
  rw [hr] at this
  exact this

end

end Verif.Notears
