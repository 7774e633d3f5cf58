import Verif.Dynotears.PropsIdentify
import Mathlib.Topology.Algebra.Module.FiniteDimension

/-!
# Series that follow linear equations: the earlier values vary

If the errors of the equations are nearly uncorrelated with one another and with the earlier values and nearly of the same size, then no
linear combination of the earlier values is small.
-/

namespace Verif.Recover

open Verif.Notears Verif.Dynotears Matrix

/-- The series `x` of `d` variables follows linear equations with the weights `u`, for the variables of the same and of the `p` earlier
time steps, with the errors `e`, from time `p` on. -/
def Follows (d p : ℕ) (u : ℕ → ℕ → ℕ → ℝ) (x e : ℕ → Fin d → ℝ) : Prop :=
  ∀ t, p ≤ t → ∀ j, x t j = ∑ i, x t i * u 0 i j + ∑ k ∈ Finset.range p, ∑ i, x (t - (k + 1)) i * u (k + 1) i j + e t j

/-- Averages over the `n` time steps from `s` on: up to `η`, the errors are uncorrelated and have the mean square `v`, and they are
uncorrelated with the earlier values. -/
structure Close {d : ℕ} (p : ℕ) (v : ℝ) (x e : ℕ → Fin d → ℝ) (s n : ℕ) (η : ℝ) : Prop where
  equal : ∀ j k, |∑ r ∈ Finset.range n, (e (r + s) j * e (r + s) k - if j = k then v else 0)| ≤ η * n
  lags : ∀ j, ∀ k < p, ∀ i, |∑ r ∈ Finset.range n, e (r + s) j * x (r + s - (k + 1)) i| ≤ η * n

variable {d p : ℕ} {u : ℕ → ℕ → ℕ → ℝ}

/-- The weights of lag `k + 1`. -/
noncomputable def lagWeights (d : ℕ) (u : ℕ → ℕ → ℕ → ℝ) (k : ℕ) : Matrix (Fin d) (Fin d) ℝ := fun i j => u (k + 1) i j

/-- What an error does to the variables of the same time step. -/
noncomputable def impact (d : ℕ) (u : ℕ → ℕ → ℕ → ℝ) : Matrix (Fin d) (Fin d) ℝ := (1 - nowMat d u)⁻¹

/-- A linear combination of the values of `p` time steps. -/
noncomputable def comb (p : ℕ) (x : ℕ → Fin d → ℝ) (s : ℕ) (c : ℕ → Fin d → ℝ) : ℝ := ∑ k ∈ Finset.range p, x (s - k) ⬝ᵥ c k

/-- The coefficients after the values of the latest time step have been replaced. -/
noncomputable def back (p : ℕ) (u : ℕ → ℕ → ℕ → ℝ) (c : ℕ → Fin d → ℝ) (k : ℕ) : Fin d → ℝ :=
  c (k + 1) + if k < p then lagWeights d u k *ᵥ (impact d u *ᵥ c 0) else 0

theorem Follows.solve (hu : AcyclicWeights d (u 0)) {x e : ℕ → Fin d → ℝ} (h : Follows d p u x e) {s : ℕ} (hs : p ≤ s) :
    x s = (∑ k ∈ Finset.range p, x (s - (k + 1)) ᵥ* lagWeights d u k + e s) ᵥ* impact d u := by
  have h1 : x s ᵥ* (1 - nowMat d u) = ∑ k ∈ Finset.range p, x (s - (k + 1)) ᵥ* lagWeights d u k + e s := by
    rw [vecMul_sub, vecMul_one]
    funext j
    have := h s hs j
    rw [Pi.sub_apply, Pi.add_apply, Finset.sum_apply]
    simp only [vecMul, dotProduct, lagWeights, nowMat]
    linarith
  rw [← h1, vecMul_vecMul, impact, Matrix.mul_nonsing_inv _ (by rw [NoCycle.det (W := nowMat d u) hu]; exact isUnit_one), vecMul_one]

theorem comb_back (hu : AcyclicWeights d (u 0)) {x e : ℕ → Fin d → ℝ} (h : Follows d p u x e) {s : ℕ} (hs : p ≤ s)
    {c : ℕ → Fin d → ℝ} (hc : ∀ k, p ≤ k → c k = 0) :
    comb p x s c = e s ⬝ᵥ (impact d u *ᵥ c 0) + comb p x (s - 1) (back p u c) := by
  have h1 : comb p x s c = x s ⬝ᵥ c 0 + ∑ k ∈ Finset.range p, x (s - (k + 1)) ⬝ᵥ c (k + 1) := by
    have := Finset.sum_range_succ' (fun k => x (s - k) ⬝ᵥ c k) p
    rw [Finset.sum_range_succ, hc p le_rfl, dotProduct_zero, add_zero] at this
    rw [comb, this]
    simp [add_comm]
  have h2 : x s ⬝ᵥ c 0 = ∑ k ∈ Finset.range p, x (s - (k + 1)) ⬝ᵥ (lagWeights d u k *ᵥ (impact d u *ᵥ c 0)) +
      e s ⬝ᵥ (impact d u *ᵥ c 0) := by
    conv_lhs => rw [h.solve hu hs]
    rw [← dotProduct_mulVec, add_dotProduct, sum_dotProduct]
    congr 1
    exact Finset.sum_congr rfl fun k _ => (dotProduct_mulVec _ _ _).symm
  have h3 : comb p x (s - 1) (back p u c) = ∑ k ∈ Finset.range p, (x (s - (k + 1)) ⬝ᵥ c (k + 1) +
      x (s - (k + 1)) ⬝ᵥ (lagWeights d u k *ᵥ (impact d u *ᵥ c 0))) := by
    refine Finset.sum_congr rfl fun k hk => ?_
    rw [Finset.mem_range] at hk
    rw [back, if_pos hk, dotProduct_add, show s - 1 - k = s - (k + 1) by omega]
  rw [h1, h2, h3, Finset.sum_add_distrib]
  ring

theorem back_zero {c : ℕ → Fin d → ℝ} (hc : ∀ k, p ≤ k → c k = 0) : ∀ k, p ≤ k → back p u c k = 0 := by
  intro k hk
  rw [back, if_neg (by omega), hc _ (by omega), add_zero]

theorem iter_zero {c : ℕ → Fin d → ℝ} (hc : ∀ k, p ≤ k → c k = 0) (a : ℕ) : ∀ k, p ≤ k → ((back p u)^[a] c) k = 0 := by
  induction a with
  | zero => exact hc
  | succ a ih =>
    rw [Function.iterate_succ_apply']
    exact back_zero ih

/-- One step: the part of the latest errors, which is nearly uncorrelated with the rest. -/
theorem comb_step (hu : AcyclicWeights d (u 0)) {x e : ℕ → Fin d → ℝ} (h : Follows d p u x e) (hp : 0 < p) {v η B : ℝ} (hB : 0 ≤ B) {s n : ℕ} (hs : p ≤ s)
    (hC : Close p v x e s n η) {c : ℕ → Fin d → ℝ} (hc : ∀ k, p ≤ k → c k = 0) (h1 : ∀ j, |(impact d u *ᵥ c 0) j| ≤ B)
    (h2 : ∀ k i, |back p u c k i| ≤ B) :
    n * (v * ∑ j, (impact d u *ᵥ c 0) j ^ 2) - n * (η * (d ^ 2 * B ^ 2 + 2 * (d * p * d * B ^ 2))) +
      ∑ r ∈ Finset.range n, comb p x (r + (s - 1)) (back p u c) ^ 2 ≤ ∑ r ∈ Finset.range n, comb p x (r + s) c ^ 2 := by
  set m := impact d u *ᵥ c 0 with hm
  have e1 : ∑ r ∈ Finset.range n, comb p x (r + s) c ^ 2 = ∑ r ∈ Finset.range n, (e (r + s) ⬝ᵥ m) ^ 2 +
      2 * ∑ r ∈ Finset.range n, (e (r + s) ⬝ᵥ m) * comb p x (r + (s - 1)) (back p u c) +
      ∑ r ∈ Finset.range n, comb p x (r + (s - 1)) (back p u c) ^ 2 := by
    rw [Finset.mul_sum, ← Finset.sum_add_distrib, ← Finset.sum_add_distrib]
    refine Finset.sum_congr rfl fun r _ => ?_
    rw [comb_back hu h (show p ≤ r + s by omega) hc, show r + s - 1 = r + (s - 1) by omega]
    ring
  have e2 : ∑ r ∈ Finset.range n, (e (r + s) ⬝ᵥ m) ^ 2 - n * (v * ∑ j, m j ^ 2) =
      ∑ j, ∑ k, m j * m k * ∑ r ∈ Finset.range n, (e (r + s) j * e (r + s) k - if j = k then v else 0) := by
    have : ∀ r, (e (r + s) ⬝ᵥ m) ^ 2 - v * ∑ j, m j ^ 2 = ∑ j, ∑ k, m j * m k * (e (r + s) j * e (r + s) k - if j = k then v else 0) := by
      intro r
      simp only [mul_sub, Finset.sum_sub_distrib, mul_ite, mul_zero, Finset.sum_ite_eq, Finset.mem_univ, if_true]
      congr 1
      · rw [sq, dotProduct, Finset.sum_mul_sum]
        exact Finset.sum_congr rfl fun j _ => Finset.sum_congr rfl fun k _ => by ring
      · rw [Finset.mul_sum]
        exact Finset.sum_congr rfl fun j _ => by ring
    have h3 : (n : ℝ) * (v * ∑ j, m j ^ 2) = ∑ r ∈ Finset.range n, v * ∑ j, m j ^ 2 := by simp
    rw [h3, ← Finset.sum_sub_distrib, Finset.sum_congr rfl fun r _ => this r, Finset.sum_comm]
    refine Finset.sum_congr rfl fun j _ => ?_
    rw [Finset.sum_comm]
    refine Finset.sum_congr rfl fun k _ => ?_
    rw [Finset.mul_sum]
  have b2 : |∑ j, ∑ k, m j * m k * ∑ r ∈ Finset.range n, (e (r + s) j * e (r + s) k - if j = k then v else 0)| ≤
      d ^ 2 * B ^ 2 * (η * n) := by
    refine (Finset.abs_sum_le_sum_abs _ _).trans ?_
    have : ∀ j ∈ (Finset.univ : Finset (Fin d)), |∑ k, m j * m k * ∑ r ∈ Finset.range n, (e (r + s) j * e (r + s) k - if j = k then v else 0)| ≤
        d * (B * B * (η * n)) := by
      intro j _
      refine (Finset.abs_sum_le_sum_abs _ _).trans ?_
      refine (Finset.sum_le_sum fun k _ => ?_).trans (b := ∑ k : Fin d, B * B * (η * n)) (le_of_eq (by simp))
      rw [abs_mul, abs_mul]
      exact mul_le_mul (mul_le_mul (h1 j) (h1 k) (abs_nonneg _) hB) (hC.equal j k) (abs_nonneg _) (by positivity)
    refine (Finset.sum_le_sum this).trans (le_of_eq ?_)
    simp
    ring
  have e3 : ∑ r ∈ Finset.range n, (e (r + s) ⬝ᵥ m) * comb p x (r + (s - 1)) (back p u c) =
      ∑ j, ∑ k ∈ Finset.range p, ∑ i, m j * back p u c k i * ∑ r ∈ Finset.range n, e (r + s) j * x (r + s - (k + 1)) i := by
    have : ∀ r, (e (r + s) ⬝ᵥ m) * comb p x (r + (s - 1)) (back p u c) =
        ∑ j, ∑ k ∈ Finset.range p, ∑ i, m j * back p u c k i * (e (r + s) j * x (r + s - (k + 1)) i) := by
      intro r
      rw [dotProduct, comb, Finset.sum_mul_sum]
      refine Finset.sum_congr rfl fun j _ => Finset.sum_congr rfl fun k _ => ?_
      rw [dotProduct, Finset.mul_sum]
      refine Finset.sum_congr rfl fun i _ => ?_
      rw [show r + (s - 1) - k = r + s - (k + 1) by omega]
      ring
    rw [Finset.sum_congr rfl fun r _ => this r, Finset.sum_comm]
    refine Finset.sum_congr rfl fun j _ => ?_
    rw [Finset.sum_comm]
    refine Finset.sum_congr rfl fun k _ => ?_
    rw [Finset.sum_comm]
    refine Finset.sum_congr rfl fun i _ => ?_
    rw [Finset.mul_sum]
  have b3 : |∑ j, ∑ k ∈ Finset.range p, ∑ i, m j * back p u c k i * ∑ r ∈ Finset.range n, e (r + s) j * x (r + s - (k + 1)) i| ≤
      d * p * d * B ^ 2 * (η * n) := by
    have : ∀ j ∈ (Finset.univ : Finset (Fin d)), |∑ k ∈ Finset.range p, ∑ i, m j * back p u c k i * ∑ r ∈ Finset.range n, e (r + s) j * x (r + s - (k + 1)) i| ≤
        p * (d * (B * B * (η * n))) := by
      intro j _
      refine (Finset.abs_sum_le_sum_abs _ _).trans ?_
      refine (Finset.sum_le_sum fun k hk => ?_).trans (b := ∑ k ∈ Finset.range p, d * (B * B * (η * n))) (le_of_eq (by simp))
      refine (Finset.abs_sum_le_sum_abs _ _).trans ?_
      refine (Finset.sum_le_sum fun i _ => ?_).trans (b := ∑ i : Fin d, B * B * (η * n)) (le_of_eq (by simp))
      rw [abs_mul, abs_mul]
      exact mul_le_mul (mul_le_mul (h1 j) (h2 k i) (abs_nonneg _) hB) (hC.lags j k (Finset.mem_range.1 hk) i) (abs_nonneg _) (by positivity)
    refine (Finset.abs_sum_le_sum_abs _ _).trans ((Finset.sum_le_sum this).trans (le_of_eq ?_))
    simp
    ring
  rw [e1, e3]
  have f2 := (abs_le.1 b2).1
  have f3 := (abs_le.1 b3).1
  rw [← e2] at f2
  nlinarith

/-- All steps. -/
theorem comb_steps (hu : AcyclicWeights d (u 0)) {x e : ℕ → Fin d → ℝ} (h : Follows d p u x e) (hp : 0 < p) {v η B : ℝ} (hB : 0 ≤ B)
    {n : ℕ} (hC : ∀ b < p, Close p v x e (2 * p - 1 - b) n η) {c : ℕ → Fin d → ℝ} (hc : ∀ k, p ≤ k → c k = 0)
    (h1 : ∀ b j, b < p → |(impact d u *ᵥ ((back p u)^[b] c) 0) j| ≤ B) (h2 : ∀ b k i, b ≤ p → |((back p u)^[b] c) k i| ≤ B) (a : ℕ) (ha : a ≤ p) :
    n * (v * ∑ b ∈ Finset.range a, ∑ j, (impact d u *ᵥ ((back p u)^[b] c) 0) j ^ 2) -
        n * (η * (a * (d ^ 2 * B ^ 2 + 2 * (d * p * d * B ^ 2)))) +
      ∑ r ∈ Finset.range n, comb p x (r + (2 * p - 1 - a)) ((back p u)^[a] c) ^ 2 ≤ ∑ r ∈ Finset.range n, comb p x (r + (2 * p - 1)) c ^ 2 := by
  induction a with
  | zero => simp
  | succ a ih =>
    have h3 := comb_step hu h hp hB (s := 2 * p - 1 - a) (by omega) (hC a (by omega)) (iter_zero hc a) (h1 a · (by omega))
      (fun k i => by rw [← Function.iterate_succ_apply' (back p u)]; exact h2 (a + 1) k i ha)
    rw [← Function.iterate_succ_apply' (back p u), show 2 * p - 1 - a - 1 = 2 * p - 1 - (a + 1) by omega] at h3
    have h4 := ih (by omega)
    rw [Finset.sum_range_succ]
    push_cast
    nlinarith

/-- Coefficients for `p` time steps. -/
def ext (c : Fin p → Fin d → ℝ) (k : ℕ) : Fin d → ℝ := if h : k < p then c ⟨k, h⟩ else 0

theorem ext_zero (c : Fin p → Fin d → ℝ) : ∀ k, p ≤ k → ext c k = 0 := fun k hk => dif_neg (by omega)

theorem iter_continuous (u : ℕ → ℕ → ℕ → ℝ) (b k : ℕ) : Continuous fun c : Fin p → Fin d → ℝ => ((back p u)^[b] (ext c)) k := by
  induction b generalizing k with
  | zero =>
    simp only [Function.iterate_zero, id_eq]
    unfold ext
    split
    · exact continuous_apply _
    · exact continuous_const
  | succ b ih =>
    simp only [Function.iterate_succ_apply']
    unfold back
    refine (ih (k + 1)).add ?_
    split
    · exact Continuous.matrix_mulVec continuous_const (Continuous.matrix_mulVec continuous_const (ih 0))
    · exact continuous_const

theorem impact_inj (hu : AcyclicWeights d (u 0)) {y : Fin d → ℝ} (h : impact d u *ᵥ y = 0) : y = 0 := by
  have h1 : (1 - nowMat d u) *ᵥ (impact d u *ᵥ y) = y := by
    rw [mulVec_mulVec, impact, Matrix.mul_nonsing_inv _ (by rw [NoCycle.det (W := nowMat d u) hu]; exact isUnit_one), one_mulVec]
  rw [← h1, h, mulVec_zero]

/-- The sum of the squares of the parts of the errors. -/
noncomputable def parts (u : ℕ → ℕ → ℕ → ℝ) (c : Fin p → Fin d → ℝ) : ℝ :=
  ∑ b ∈ Finset.range p, ∑ j, (impact d u *ᵥ ((back p u)^[b] (ext c)) 0) j ^ 2

theorem parts_zero (hu : AcyclicWeights d (u 0)) {c : Fin p → Fin d → ℝ} (h : parts u c = 0) : c = 0 := by
  have h1 : ∀ b < p, ((back p u)^[b] (ext c)) 0 = 0 := by
    intro b hb
    have h2 := (Finset.sum_eq_zero_iff_of_nonneg fun b _ => Finset.sum_nonneg fun j _ => sq_nonneg _).1 h b (Finset.mem_range.2 hb)
    refine impact_inj hu (funext fun j => ?_)
    have h3 := (Finset.sum_eq_zero_iff_of_nonneg fun j _ => sq_nonneg _).1 h2 j (Finset.mem_univ j)
    exact pow_eq_zero_iff (two_ne_zero) |>.1 h3
  have h2 : ∀ b ≤ p, ∀ k, ((back p u)^[b] (ext c)) k = ext c (k + b) := by
    intro b
    induction b with
    | zero => intro _ k; rfl
    | succ b ih =>
      intro hb k
      rw [Function.iterate_succ_apply', back, h1 b (by omega), mulVec_zero, mulVec_zero, ite_self, add_zero, ih (by omega)]
      congr 1
      omega
  funext k
  have h3 := h2 k k.2.le 0
  rw [h1 k k.2, Nat.zero_add, ext, dif_pos k.2] at h3
  exact h3.symm

/-- Bounds for coefficients of norm 1. -/
theorem sphere_bounds (hu : AcyclicWeights d (u 0)) : ∃ κ > 0, ∃ B ≥ 0, ∀ c : Fin p → Fin d → ℝ, ‖c‖ = 1 →
    κ ≤ parts u c ∧ (∀ b j, b < p → |(impact d u *ᵥ ((back p u)^[b] (ext c)) 0) j| ≤ B) ∧
    ∀ b k i, b ≤ p → |((back p u)^[b] (ext c)) k i| ≤ B := by
  have hK : IsCompact (Metric.sphere (0 : Fin p → Fin d → ℝ) 1) := isCompact_sphere _ _
  have hc1 : Continuous fun c : Fin p → Fin d → ℝ => parts u c := by
    refine continuous_finsetSum _ fun b _ => continuous_finsetSum _ fun j _ => Continuous.pow ?_ 2
    exact (continuous_apply j).comp (Continuous.matrix_mulVec continuous_const (iter_continuous u b 0))
  have hc2 : Continuous fun c : Fin p → Fin d → ℝ => ∑ b ∈ Finset.range (p + 1),
      (‖impact d u *ᵥ ((back p u)^[b] (ext c)) 0‖ + ∑ k ∈ Finset.range p, ‖((back p u)^[b] (ext c)) k‖) := by
    refine continuous_finsetSum _ fun b _ => Continuous.add ?_ (continuous_finsetSum _ fun k _ => (iter_continuous u b k).norm)
    exact (Continuous.matrix_mulVec continuous_const (iter_continuous u b 0)).norm
  by_cases hne : (Metric.sphere (0 : Fin p → Fin d → ℝ) 1).Nonempty
  · obtain ⟨c₀, hc₀, hmin⟩ := hK.exists_isMinOn hne hc1.continuousOn
    obtain ⟨c₁, hc₁, hmax⟩ := hK.exists_isMaxOn hne hc2.continuousOn
    refine ⟨parts u c₀, ?_, ∑ b ∈ Finset.range (p + 1), (‖impact d u *ᵥ ((back p u)^[b] (ext c₁)) 0‖ +
      ∑ k ∈ Finset.range p, ‖((back p u)^[b] (ext c₁)) k‖),
      Finset.sum_nonneg fun b _ => add_nonneg (norm_nonneg _) (Finset.sum_nonneg fun k _ => norm_nonneg _), ?_⟩
    · refine lt_of_le_of_ne (Finset.sum_nonneg fun b _ => Finset.sum_nonneg fun j _ => sq_nonneg _) fun h0 => ?_
      have := parts_zero hu h0.symm
      rw [this] at hc₀
      simp at hc₀
    · intro c hc
      have hcs : c ∈ Metric.sphere (0 : Fin p → Fin d → ℝ) 1 := by simpa using hc
      have hle := hmax hcs
      refine ⟨hmin hcs, fun b j hb => ?_, fun b k i hb => ?_⟩
      · refine le_trans ?_ hle
        have h1 : |(impact d u *ᵥ ((back p u)^[b] (ext c)) 0) j| ≤ ‖impact d u *ᵥ ((back p u)^[b] (ext c)) 0‖ :=
          norm_le_pi_norm (impact d u *ᵥ ((back p u)^[b] (ext c)) 0) j
        refine (h1.trans ?_).trans (Finset.single_le_sum (f := fun b => (‖impact d u *ᵥ ((back p u)^[b] (ext c)) 0‖ +
          ∑ k ∈ Finset.range p, ‖((back p u)^[b] (ext c)) k‖)) (fun b _ => add_nonneg (norm_nonneg _) (Finset.sum_nonneg fun k _ => norm_nonneg _))
          (Finset.mem_range.2 (show b < p + 1 by omega)))
        exact le_add_of_nonneg_right (Finset.sum_nonneg fun k _ => norm_nonneg _)
      · by_cases hk : k < p
        · refine le_trans ?_ hle
          have h1 : |((back p u)^[b] (ext c)) k i| ≤ ‖((back p u)^[b] (ext c)) k‖ := norm_le_pi_norm (((back p u)^[b] (ext c)) k) i
          refine (h1.trans ?_).trans (Finset.single_le_sum (f := fun b => (‖impact d u *ᵥ ((back p u)^[b] (ext c)) 0‖ +
            ∑ k ∈ Finset.range p, ‖((back p u)^[b] (ext c)) k‖)) (fun b _ => add_nonneg (norm_nonneg _) (Finset.sum_nonneg fun k _ => norm_nonneg _))
            (Finset.mem_range.2 (show b < p + 1 by omega)))
          exact le_add_of_nonneg_of_le (norm_nonneg _)
            (Finset.single_le_sum (f := fun k => ‖((back p u)^[b] (ext c)) k‖) (fun k _ => norm_nonneg _) (Finset.mem_range.2 hk))
        · rw [iter_zero (ext_zero c) b k (by omega)]
          simp only [Pi.zero_apply, abs_zero]
          exact Finset.sum_nonneg fun b _ => add_nonneg (norm_nonneg _) (Finset.sum_nonneg fun k _ => norm_nonneg _)
  · refine ⟨1, one_pos, 0, le_rfl, fun c hc => (hne ⟨c, by simpa using hc⟩).elim⟩

theorem comb_smul (x : ℕ → Fin d → ℝ) (s : ℕ) (t : ℝ) (c : Fin p → Fin d → ℝ) : comb p x s (ext (t • c)) = t * comb p x s (ext c) := by
  unfold comb
  rw [Finset.mul_sum]
  refine Finset.sum_congr rfl fun k hk => ?_
  rw [Finset.mem_range] at hk
  simp only [ext, dif_pos hk, Pi.smul_apply, dotProduct_smul, smul_eq_mul]

/-- **The earlier values vary**: no linear combination of the earlier values is small. -/
theorem lagsVary_of_close (hu : AcyclicWeights d (u 0)) : ∃ κ > 0, ∃ η > 0, ∀ (x e : ℕ → Fin d → ℝ) (v : ℝ) (n : ℕ) (X Xlags : Data ℝ),
    0 < v → Follows d p u x e → 2 * p ≤ n → 0 < n → (∀ b < p, Close p v x e (2 * p - 1 - b) (n - p) (η * v)) → X.rows = n →
    Xlags.cols = p * d → (∀ r < n, ∀ k < p, ∀ i : Fin d, Xlags.val r (k * d + i) = x (r + p - (k + 1)) i) → LagsVary X Xlags (κ * v) := by
  obtain ⟨κ₀, hκ₀, B, hB, hs⟩ := sphere_bounds (p := p) hu
  have hK : 0 ≤ (p * (d ^ 2 * B ^ 2 + 2 * (d * p * d * B ^ 2)) : ℝ) := by positivity
  set K : ℝ := p * (d ^ 2 * B ^ 2 + 2 * (d * p * d * B ^ 2)) with hKdef
  refine ⟨κ₀ / (4 * (p * d + 1)), by positivity, κ₀ / (2 * (K + 1)), by positivity, ?_⟩
  intro x e v n X Xlags hv hF hn hn0 hC hX hXl hval c
  have hnR : (0 : ℝ) < n := by exact_mod_cast hn0
  rw [hX, hXl]
  -- the coefficients, by time steps
  let y : Fin p → Fin d → ℝ := fun k i => c (k * d + i)
  have hsum : ∀ r < n, ∑ m ∈ Finset.range (p * d), Xlags.val r m * c m = comb p x (r + p - 1) (ext y) := by
    intro r hr
    rw [sum_blocks (fun m => Xlags.val r m * c m) p d, comb]
    refine Finset.sum_congr rfl fun k hk => ?_
    rw [Finset.mem_range] at hk
    rw [Finset.sum_range, dotProduct]
    refine Finset.sum_congr rfl fun i _ => ?_
    rw [hval r hr k hk i, show r + p - 1 - k = r + p - (k + 1) by omega, ext, dif_pos hk]
  have hsq : ∑ m ∈ Finset.range (p * d), c m ^ 2 ≤ (p * d + 1) * ‖y‖ ^ 2 := by
    rw [sum_blocks (fun m => c m ^ 2) p d, Finset.sum_range]
    have h1 : ∀ k ∈ (Finset.univ : Finset (Fin p)), ∑ i ∈ Finset.range d, c (k * d + i) ^ 2 ≤ d * ‖y‖ ^ 2 := by
      intro k _
      rw [Finset.sum_range]
      refine (Finset.sum_le_sum fun i _ => ?_).trans (b := ∑ i : Fin d, ‖y‖ ^ 2) (le_of_eq (by simp))
      have h2 : |c (k * d + i)| ≤ ‖y‖ := (norm_le_pi_norm (y k) i).trans (norm_le_pi_norm y k)
      rw [← sq_abs]
      exact pow_le_pow_left₀ (abs_nonneg _) h2 2
    refine (Finset.sum_le_sum h1).trans ?_
    simp
    nlinarith [sq_nonneg ‖y‖]
  have hnn : 0 ≤ ∑ r ∈ Finset.range n, (∑ m ∈ Finset.range (p * d), Xlags.val r m * c m) ^ 2 := Finset.sum_nonneg fun _ _ => sq_nonneg _
  rw [le_div_iff₀ hnR]
  by_cases hy : y = 0
  · rw [hy, norm_zero] at hsq
    have h0 : ∑ m ∈ Finset.range (p * d), c m ^ 2 = 0 := le_antisymm (by simpa using hsq) (Finset.sum_nonneg fun _ _ => sq_nonneg _)
    rw [h0]
    simpa using hnn
  · have hp : 0 < p := by
      rcases Nat.eq_zero_or_pos p with rfl | h
      · exact (hy (funext fun k => k.elim0)).elim
      · exact h
    have ht : 0 < ‖y‖ := norm_pos_iff.2 hy
    set t := ‖y‖ with htdef
    have hz : ‖t⁻¹ • y‖ = 1 := by rw [norm_smul, norm_inv, Real.norm_of_nonneg ht.le, ← htdef, inv_mul_cancel₀ ht.ne']
    obtain ⟨s1, s2, s3⟩ := hs _ hz
    have h1 := comb_steps hu hF hp hB hC (ext_zero (t⁻¹ • y)) s2 s3 p le_rfl
    have h2 : 0 ≤ ∑ r ∈ Finset.range (n - p), comb p x (r + (2 * p - 1 - p)) ((back p u)^[p] (ext (t⁻¹ • y))) ^ 2 :=
      Finset.sum_nonneg fun _ _ => sq_nonneg _
    have h3 : ∑ r ∈ Finset.range (n - p), comb p x (r + (2 * p - 1)) (ext (t⁻¹ • y)) ^ 2 =
        (t⁻¹) ^ 2 * ∑ r ∈ Finset.range (n - p), comb p x (r + (2 * p - 1)) (ext y) ^ 2 := by
      rw [Finset.mul_sum]
      refine Finset.sum_congr rfl fun r _ => ?_
      rw [comb_smul]
      ring
    have h4 : ∑ r ∈ Finset.range (n - p), comb p x (r + (2 * p - 1)) (ext y) ^ 2 ≤
        ∑ r ∈ Finset.range n, (∑ m ∈ Finset.range (p * d), Xlags.val r m * c m) ^ 2 := by
      conv_rhs => rw [show n = p + (n - p) by omega, Finset.sum_range_add]
      refine le_trans (le_of_eq ?_) (le_add_of_nonneg_left (Finset.sum_nonneg fun _ _ => sq_nonneg _))
      refine Finset.sum_congr rfl fun r hr => ?_
      rw [Finset.mem_range] at hr
      rw [hsum (p + r) (by omega), show p + r + p - 1 = r + (2 * p - 1) by omega]
    have hn' : (n : ℝ) / 2 ≤ ((n - p : ℕ) : ℝ) := by
      rw [Nat.cast_sub (by omega)]
      have : (2 * p : ℝ) ≤ n := by exact_mod_cast hn
      linarith
    have h5 : κ₀ / (2 * (K + 1)) * v * K ≤ v * (κ₀ / 2) := by
      rw [div_mul_eq_mul_div, div_mul_eq_mul_div, div_le_iff₀ (by positivity)]
      have := mul_pos hκ₀ hv
      nlinarith
    have h6 : n / 2 * (v * (κ₀ / 2)) ≤ (t⁻¹) ^ 2 * ∑ r ∈ Finset.range n, (∑ m ∈ Finset.range (p * d), Xlags.val r m * c m) ^ 2 := by
      refine le_trans ?_ (mul_le_mul_of_nonneg_left h4 (sq_nonneg _))
      rw [← h3]
      refine le_trans ?_ (h1.trans le_rfl)
      have h7 : v * κ₀ ≤ v * parts u (t⁻¹ • y) := mul_le_mul_of_nonneg_left s1 hv.le
      have h8 : ((n - p : ℕ) : ℝ) * (v * (κ₀ / 2)) ≤ ((n - p : ℕ) : ℝ) * (v * parts u (t⁻¹ • y)) -
          ((n - p : ℕ) : ℝ) * (κ₀ / (2 * (K + 1)) * v * K) := by
        rw [← mul_sub]
        refine mul_le_mul_of_nonneg_left ?_ (by positivity)
        linarith
      have h9 : (n : ℝ) / 2 * (v * (κ₀ / 2)) ≤ ((n - p : ℕ) : ℝ) * (v * (κ₀ / 2)) := mul_le_mul_of_nonneg_right hn' (by positivity)
      unfold parts at h8
      linarith
    have h7 : n / 2 * (v * (κ₀ / 2)) * t ^ 2 ≤ ∑ r ∈ Finset.range n, (∑ m ∈ Finset.range (p * d), Xlags.val r m * c m) ^ 2 := by
      have := mul_le_mul_of_nonneg_right h6 (sq_nonneg t)
      have h10 : (t⁻¹) ^ 2 * t ^ 2 = 1 := by rw [← mul_pow, inv_mul_cancel₀ ht.ne', one_pow]
      calc n / 2 * (v * (κ₀ / 2)) * t ^ 2 ≤ _ := this
        _ = (t⁻¹) ^ 2 * t ^ 2 * ∑ r ∈ Finset.range n, (∑ m ∈ Finset.range (p * d), Xlags.val r m * c m) ^ 2 := by ring
        _ = _ := by rw [h10, one_mul]
    refine le_trans ?_ h7
    have h8 : κ₀ / (4 * (p * d + 1)) * v * ∑ m ∈ Finset.range (p * d), c m ^ 2 ≤ κ₀ / (4 * (p * d + 1)) * v * ((p * d + 1) * t ^ 2) :=
      mul_le_mul_of_nonneg_left hsq (by positivity)
    have h9 : κ₀ / (4 * (p * d + 1)) * v * ((p * d + 1) * t ^ 2) = κ₀ * v / 4 * t ^ 2 := by
      field_simp
    rw [h9] at h8
    have := mul_le_mul_of_nonneg_right h8 hnR.le
    linarith

end Verif.Recover
