import Verif.Recover.DynSpec
import Mathlib.MeasureTheory.Function.L2Space
import Mathlib.Algebra.Order.Chebyshev

/-!
# Series whose mean squares stay bounded

Stable equations, and errors that are independent over time, make a series as C138 requires.
-/

namespace Verif.Recover

open MeasureTheory ProbabilityTheory Verif.Notears Verif.Dynotears Matrix

/-- The weights are stable: with the scales `b` of the variables, the absolute weights that lead to a variable add up to at most `ρ`. -/
structure Stable (d p : ℕ) (u : ℕ → ℕ → ℕ → ℝ) (b : Fin d → ℝ) (ρ : ℝ) : Prop where
  scale : ∀ j, 0 < b j
  pos : 0 < ρ
  less : ρ < 1
  sum : ∀ j : Fin d, ∑ k ∈ Finset.range (p + 1), ∑ i : Fin d, b i * |u k i j| ≤ ρ * b j

theorem follows_sum {d p : ℕ} {u : ℕ → ℕ → ℕ → ℝ} {x e : ℕ → Fin d → ℝ} (h : Follows d p u x e) {t : ℕ} (ht : p ≤ t) (j : Fin d) :
    x t j = ∑ k ∈ Finset.range (p + 1), ∑ i, x (t - k) i * u k i j + e t j := by
  rw [Finset.sum_range_succ', h t ht j]
  simp only [Nat.sub_zero]
  ring

/-- One step. -/
theorem step_square {d p : ℕ} {u : ℕ → ℕ → ℕ → ℝ} {b : Fin d → ℝ} {ρ : ℝ} (hs : Stable d p u b ρ) {x e : ℕ → Fin d → ℝ}
    (h : Follows d p u x e) {t : ℕ} (ht : p ≤ t) (j : Fin d) :
    (x t j) ^ 2 ≤ b j * ∑ k ∈ Finset.range (p + 1), ∑ i : Fin d, |u k i j| / b i * x (t - k) i ^ 2 + (e t j) ^ 2 / (1 - ρ) := by
  have hb := hs.scale
  have h1 : (∑ q ∈ Finset.range (p + 1) ×ˢ (Finset.univ : Finset (Fin d)), x (t - q.1) q.2 * u q.1 q.2 j) ^ 2 ≤
      (∑ q ∈ Finset.range (p + 1) ×ˢ (Finset.univ : Finset (Fin d)), b q.2 * |u q.1 q.2 j|) *
        ∑ q ∈ Finset.range (p + 1) ×ˢ (Finset.univ : Finset (Fin d)), |u q.1 q.2 j| / b q.2 * x (t - q.1) q.2 ^ 2 := by
    refine Finset.sum_sq_le_sum_mul_sum_of_sq_le_mul _ (fun q _ => mul_nonneg (hb _).le (abs_nonneg _))
      (fun q _ => mul_nonneg (div_nonneg (abs_nonneg _) (hb _).le) (sq_nonneg _)) fun q _ => ?_
    have := (hb q.2).ne'
    rw [mul_pow, ← sq_abs (u q.1 q.2 j)]
    refine le_of_eq ?_
    field_simp
  rw [Finset.sum_product, Finset.sum_product, Finset.sum_product] at h1
  simp only [] at h1
  rw [follows_sum h ht j]
  set A := ∑ k ∈ Finset.range (p + 1), ∑ i, x (t - k) i * u k i j
  set G := ∑ k ∈ Finset.range (p + 1), ∑ i : Fin d, |u k i j| / b i * x (t - k) i ^ 2
  have hG : 0 ≤ G := Finset.sum_nonneg fun k _ => Finset.sum_nonneg fun i _ =>
    mul_nonneg (div_nonneg (abs_nonneg _) (hb _).le) (sq_nonneg _)
  have h2 : A ^ 2 ≤ ρ * (b j * G) := by
    calc A ^ 2 ≤ _ := h1
      _ ≤ (ρ * b j) * G := mul_le_mul_of_nonneg_right (hs.sum j) hG
      _ = _ := by ring
  have hr : 0 < 1 - ρ := by linarith [hs.less]
  have h3 : (A + e t j) ^ 2 ≤ A ^ 2 / ρ + (e t j) ^ 2 / (1 - ρ) := by
    have h4 : A ^ 2 / ρ + (e t j) ^ 2 / (1 - ρ) - (A + e t j) ^ 2 = ((1 - ρ) * A - ρ * e t j) ^ 2 / (ρ * (1 - ρ)) := by
      have := hs.pos.ne'
      field_simp
      ring
    have h5 : 0 ≤ ((1 - ρ) * A - ρ * e t j) ^ 2 / (ρ * (1 - ρ)) := div_nonneg (sq_nonneg _) (mul_nonneg hs.pos.le hr.le)
    linarith
  have h6 : A ^ 2 / ρ ≤ b j * G := by
    rw [div_le_iff₀ hs.pos]
    linarith
  linarith

section
variable {Ω : Type} [m0 : MeasurableSpace Ω] {P : Measure Ω} {d p : ℕ} {u : ℕ → ℕ → ℕ → ℝ}
  {x e : ℕ → Ω → Fin d → ℝ}

/-- All values have finite mean squares. -/
theorem square_integrable (hu : AcyclicWeights d (u 0)) (hF : ∀ ω, Follows d p u (x · ω) (e · ω))
    (h0 : ∀ t < p, ∀ j, MemLp (fun ω => x t ω j) 2 P) (he : ∀ t, p ≤ t → ∀ j, MemLp (fun ω => e t ω j) 2 P) (t : ℕ) :
    ∀ j, MemLp (fun ω => x t ω j) 2 P := by
  induction t using Nat.strong_induction_on with
  | _ t ih =>
    by_cases ht : t < p
    · exact h0 t ht
    · have ht : p ≤ t := not_lt.1 ht
      intro j
      have h1 : (fun ω => x t ω j) = fun ω => ∑ m, impact d u m j * (∑ k ∈ Finset.range p, ∑ i, lagWeights d u k i m * x (t - (k + 1)) ω i +
          e t ω m) := by
        funext ω
        have := congrFun ((hF ω).solve hu ht) j
        simp only [vecMul, dotProduct, Pi.add_apply, Finset.sum_apply] at this
        simp only [mul_comm (impact d u _ j), mul_comm (lagWeights d u _ _ _)]
        exact this
      have h2 : ∀ k ∈ Finset.range p, ∀ i m, MemLp (fun ω => lagWeights d u k i m * x (t - (k + 1)) ω i) 2 P := fun k hk i m =>
        (ih _ (by have := Finset.mem_range.1 hk; omega) i).const_mul _
      have h3 : ∀ m, MemLp (fun ω => ∑ k ∈ Finset.range p, ∑ i, lagWeights d u k i m * x (t - (k + 1)) ω i) 2 P := fun m =>
        memLp_finsetSum _ fun k hk => memLp_finsetSum _ fun i _ => h2 k hk i m
      rw [h1]
      exact memLp_finsetSum _ fun m _ => ((h3 m).add (he t ht m)).const_mul _

/-- The mean squares of the values of stable equations are bounded. -/
theorem square_bounded {b : Fin d → ℝ} {ρ Z : ℝ} (hs : Stable d p u b ρ) (hZ : 0 ≤ Z) (hu : AcyclicWeights d (u 0))
    (hF : ∀ ω, Follows d p u (x · ω) (e · ω))
    (h0 : ∀ t < p, ∀ j, MemLp (fun ω => x t ω j) 2 P ∧ ∫ ω, x t ω j ^ 2 ∂P ≤ Z)
    (he : ∀ t, p ≤ t → ∀ j, MemLp (fun ω => e t ω j) 2 P ∧ ∫ ω, e t ω j ^ 2 ∂P ≤ Z) (t : ℕ) (j : Fin d) :
    Integrable (fun ω => x t ω j ^ 2) P ∧ ∫ ω, x t ω j ^ 2 ∂P ≤ b j ^ 2 * (∑ i, Z / (1 - ρ) ^ 2 / b i ^ 2) := by
  have hb := hs.scale
  have hr : 0 < 1 - ρ := by linarith [hs.less]
  have hx := square_integrable hu hF (fun t ht j => (h0 t ht j).1) (fun t ht j => (he t ht j).1)
  refine ⟨(hx t j).integrable_sq, ?_⟩
  set M : ℝ := ∑ i, Z / (1 - ρ) ^ 2 / b i ^ 2 with hM
  have hMi : ∀ i, Z / (1 - ρ) ^ 2 / b i ^ 2 ≤ M := fun i =>
    Finset.single_le_sum (f := fun i => Z / (1 - ρ) ^ 2 / b i ^ 2) (fun i _ => by positivity) (Finset.mem_univ i)
  have hM0 : 0 ≤ M := Finset.sum_nonneg fun i _ => by positivity
  induction t using Nat.strong_induction_on generalizing j with
  | _ t ih =>
    by_cases ht : t < p
    · refine (h0 t ht j).2.trans ?_
      have h1 : Z ≤ Z / (1 - ρ) ^ 2 := by
        rw [le_div_iff₀ (by positivity)]
        have : (1 - ρ) ^ 2 ≤ 1 := by
          have := hs.pos
          nlinarith
        nlinarith
      have h2 := hMi j
      rw [div_le_iff₀ (by have := hb j; positivity)] at h2
      linarith
    have ht : p ≤ t := not_lt.1 ht
    -- the largest of the mean squares at time `t`, relative to the scales
    obtain ⟨m, -, hm⟩ := Finset.exists_max_image (Finset.univ : Finset (Fin d)) (fun i => (∫ ω, x t ω i ^ 2 ∂P) / b i ^ 2) ⟨j, Finset.mem_univ j⟩
    set N : ℝ := (∫ ω, x t ω m ^ 2 ∂P) / b m ^ 2 with hN
    have hall : ∀ i, ∫ ω, x t ω i ^ 2 ∂P ≤ N * b i ^ 2 := fun i => by
      have := hm i (Finset.mem_univ i)
      rwa [div_le_iff₀ (by have := hb i; positivity)] at this
    suffices N ≤ M by
      calc _ ≤ N * b j ^ 2 := hall j
        _ ≤ M * b j ^ 2 := mul_le_mul_of_nonneg_right this (sq_nonneg _)
        _ = _ := by ring
    by_contra hlt
    have hlt : M < N := not_le.1 hlt
    have hprev : ∀ k, ∀ i, ∫ ω, x (t - k) ω i ^ 2 ∂P ≤ N * b i ^ 2 := by
      intro k i
      by_cases hk : t - k < t
      · refine (ih _ hk i).trans ?_
        nlinarith [sq_nonneg (b i)]
      · rw [show t - k = t by omega]
        exact hall i
    have hI : ∀ k i, Integrable (fun ω => x (t - k) ω i ^ 2) P := fun k i => (hx _ i).integrable_sq
    have h1 : ∫ ω, x t ω m ^ 2 ∂P ≤ ∫ ω, (b m * ∑ k ∈ Finset.range (p + 1), ∑ i : Fin d, |u k i m| / b i * x (t - k) ω i ^ 2 +
        e t ω m ^ 2 / (1 - ρ)) ∂P := by
      refine integral_mono (hx t m).integrable_sq ?_ fun ω => step_square hs (hF ω) ht m
      exact ((integrable_finsetSum _ fun k _ => integrable_finsetSum _ fun i _ => (hI k i).const_mul _).const_mul _).add
        ((he t ht m).1.integrable_sq.div_const _)
    rw [integral_add ((integrable_finsetSum _ fun k _ => integrable_finsetSum _ fun i _ => (hI k i).const_mul _).const_mul _)
      ((he t ht m).1.integrable_sq.div_const _), integral_const_mul, integral_div,
      integral_finsetSum _ fun k _ => integrable_finsetSum _ fun i _ => (hI k i).const_mul _] at h1
    have h2 : ∑ k ∈ Finset.range (p + 1), ∫ ω, ∑ i : Fin d, |u k i m| / b i * x (t - k) ω i ^ 2 ∂P ≤ N * (ρ * b m) := by
      calc ∑ k ∈ Finset.range (p + 1), ∫ ω, ∑ i : Fin d, |u k i m| / b i * x (t - k) ω i ^ 2 ∂P
          ≤ ∑ k ∈ Finset.range (p + 1), ∑ i : Fin d, N * (b i * |u k i m|) := by
            refine Finset.sum_le_sum fun k _ => ?_
            rw [integral_finsetSum _ fun i _ => (hI k i).const_mul _]
            refine Finset.sum_le_sum fun i _ => ?_
            rw [integral_const_mul]
            have := hb i
            calc |u k i m| / b i * ∫ ω, x (t - k) ω i ^ 2 ∂P ≤ |u k i m| / b i * (N * b i ^ 2) :=
                  mul_le_mul_of_nonneg_left (hprev k i) (by positivity)
              _ = _ := by field_simp
        _ = N * ∑ k ∈ Finset.range (p + 1), ∑ i : Fin d, b i * |u k i m| := by simp only [Finset.mul_sum]
        _ ≤ _ := mul_le_mul_of_nonneg_left (hs.sum m) (hM0.trans hlt.le)
    have h3 : (∫ ω, e t ω m ^ 2 ∂P) / (1 - ρ) ≤ Z / (1 - ρ) := div_le_div_of_nonneg_right (he t ht m).2 hr.le
    have hbm := hb m
    have h4 : N * b m ^ 2 ≤ b m * (N * (ρ * b m)) + Z / (1 - ρ) := by
      have h5 : N * b m ^ 2 = ∫ ω, x t ω m ^ 2 ∂P := by rw [hN]; field_simp
      rw [h5]
      refine h1.trans (add_le_add (mul_le_mul_of_nonneg_left h2 hbm.le) h3)
    have h6 : N * b m ^ 2 * (1 - ρ) ≤ Z / (1 - ρ) := by linarith
    have h7 : N ≤ Z / (1 - ρ) ^ 2 / b m ^ 2 := by
      rw [le_div_iff₀ (by positivity), le_div_iff₀ (by positivity)]
      rw [le_div_iff₀ hr] at h6
      linarith
    linarith [hMi m]

omit m0 in
/-- The values of a series are made of its first values and of the errors. -/
theorem value_measurable {𝒢 : MeasurableSpace Ω} {T : ℕ} (hu : AcyclicWeights d (u 0)) (hF : ∀ ω, Follows d p u (x · ω) (e · ω))
    (h0 : ∀ t < T, t < p → Measurable[𝒢] (x t)) (he : ∀ t < T, p ≤ t → Measurable[𝒢] (e t)) (t : ℕ) (htT : t < T) :
    Measurable[𝒢] (x t) := by
  induction t using Nat.strong_induction_on with
  | _ t ih =>
    by_cases ht : t < p
    · exact h0 t htT ht
    · have ht : p ≤ t := not_lt.1 ht
      let := 𝒢
      refine measurable_pi_iff.2 fun j => ?_
      have h1 : (fun ω => x t ω j) = fun ω => ∑ m, (∑ k ∈ Finset.range p, ∑ i, x (t - (k + 1)) ω i * lagWeights d u k i m + e t ω m) *
          impact d u m j := by
        funext ω
        have := congrFun ((hF ω).solve hu ht) j
        simp only [vecMul, dotProduct, Pi.add_apply, Finset.sum_apply] at this
        exact this
      rw [h1]
      refine Finset.measurable_sum _ fun m _ => Measurable.mul_const (Measurable.add (Finset.measurable_sum _ fun k hk =>
        Finset.measurable_sum _ fun i _ => ?_) ((measurable_pi_apply m).comp (he t htT ht))) _
      have hk := Finset.mem_range.1 hk
      exact ((measurable_pi_apply i).comp (ih _ (by omega) (by omega))).mul_const _

/-- If an error is independent of the first values and of the earlier errors, then it is independent of all earlier values. -/
theorem indep_values (hu : AcyclicWeights d (u 0)) (hF : ∀ ω, Follows d p u (x · ω) (e · ω)) {t : ℕ}
    (h : e t ⟂ᵢ[P] (fun ω (s : Fin t) => if s.1 < p then x s ω else e s ω)) : e t ⟂ᵢ[P] (fun ω (s : Fin t) => x s ω) := by
  rw [IndepFun_iff_Indep] at h ⊢
  refine indep_of_indep_of_le_right h ?_
  let 𝒢 : MeasurableSpace Ω := MeasurableSpace.comap (fun ω (s : Fin t) => if s.1 < p then x s ω else e s ω) inferInstance
  have hs : ∀ s (hs : s < t), Measurable[𝒢] fun ω => if s < p then x s ω else e s ω := fun s hs =>
    (measurable_pi_apply (⟨s, hs⟩ : Fin t)).comp (comap_measurable (fun ω (s : Fin t) => if s.1 < p then x s ω else e s ω))
  have h1 : ∀ s < t, Measurable[𝒢] (x s) := fun s hst => value_measurable (T := t) hu hF
    (fun r hr hp => by simpa only [hp, if_true] using hs r hr)
    (fun r hr hp => by simpa only [not_lt.2 hp, if_false] using hs r hr) s hst
  have h2 : Measurable[𝒢] (fun ω (s : Fin t) => x s ω) := by
    let := 𝒢
    exact measurable_pi_iff.2 fun s => h1 s s.2
  exact h2.comap_le

/-- A series from a later time on. -/
theorem Innovations.shift {v C : ℝ} (h : Innovations P d p v C x e) (m : ℕ) :
    Innovations P d p v C (fun t => x (t + m)) (fun t => e (t + m)) where
  measurable t := h.measurable _
  indep t ht := by
    have := h.indep (t + m) (by omega)
    refine this.comp (φ := id) (ψ := fun f : Fin (t + m) → Fin d → ℝ => fun s : Fin t => f ⟨s + m, by omega⟩) measurable_id ?_
    exact measurable_pi_iff.2 fun s => measurable_pi_apply _
  mean t ht := h.mean _ (by omega)
  product t ht := h.product _ (by omega)
  fourth t ht := h.fourth _ (by omega)
  square t := h.square _

theorem Follows.shift {x e : ℕ → Fin d → ℝ} (h : Follows d p u x e) (m : ℕ) : Follows d p u (fun t => x (t + m)) (fun t => e (t + m)) := by
  intro t ht j
  have := h (t + m) (by omega) j
  simp only at this ⊢
  rw [this]
  congr 2
  refine Finset.sum_congr rfl fun k hk => Finset.sum_congr rfl fun i _ => ?_
  rw [show t + m - (k + 1) = t - (k + 1) + m by have := Finset.mem_range.1 hk; omega]

end

end Verif.Recover
