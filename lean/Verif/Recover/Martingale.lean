import Verif.Recover.DynSpec
import Mathlib.Probability.Independence.Integration
import Mathlib.MeasureTheory.Function.L2Space

/-!
# Averages of products of an error and of something known before

If the errors have mean 0 and are independent of what is known before, the products are uncorrelated, so that Chebyshev's inequality
applies to their average.
-/

namespace Verif.Recover

open MeasureTheory ProbabilityTheory

section
variable {Ω : Type} [m0 : MeasurableSpace Ω] {P : Measure Ω} [IsProbabilityMeasure P]

omit [IsProbabilityMeasure P] in
theorem indepFun_of_past {𝒢 : MeasurableSpace Ω} {a Z : Ω → ℝ} (h : Indep (MeasurableSpace.comap a inferInstance) 𝒢 P)
    (hZ : Measurable[𝒢] Z) : a ⟂ᵢ[P] Z := by
  rw [IndepFun_iff_Indep]
  exact indep_of_indep_of_le_right h hZ.comap_le

omit [IsProbabilityMeasure P] in
/-- The mean square of a sum of products. -/
theorem sum_square {𝒢 : ℕ → MeasurableSpace Ω} (hmono : Monotone 𝒢) {a Y : ℕ → Ω → ℝ}
    (ha : ∀ r, Measurable[𝒢 (r + 1)] (a r)) (hY : ∀ r, Measurable[𝒢 r] (Y r))
    (hind : ∀ r, Indep (MeasurableSpace.comap (a r) inferInstance) (𝒢 r) P) (ha2 : ∀ r, MemLp (a r) 2 P) (hY2 : ∀ r, MemLp (Y r) 2 P)
    (h0 : ∀ r, ∫ ω, a r ω ∂P = 0) {A B : ℝ} (hA : ∀ r, ∫ ω, a r ω ^ 2 ∂P ≤ A) (hB : ∀ r, ∫ ω, Y r ω ^ 2 ∂P ≤ B) (n : ℕ) :
    Measurable[𝒢 n] (fun ω => ∑ r ∈ Finset.range n, a r ω * Y r ω) ∧ MemLp (fun ω => ∑ r ∈ Finset.range n, a r ω * Y r ω) 2 P ∧
      ∫ ω, (∑ r ∈ Finset.range n, a r ω * Y r ω) ^ 2 ∂P ≤ n * (A * B) := by
  induction n with
  | zero => simp
  | succ n ih =>
    obtain ⟨h1, h2, h3⟩ := ih
    simp only [Finset.sum_range_succ]
    have hprod : Integrable (fun ω => a n ω ^ 2 * Y n ω ^ 2) P := by
      have hi : (fun ω => a n ω ^ 2) ⟂ᵢ[P] (fun ω => Y n ω ^ 2) :=
        (indepFun_of_past (hind n) (hY n)).comp (φ := fun x : ℝ => x ^ 2) (ψ := fun x : ℝ => x ^ 2) (measurable_id.pow_const 2) (measurable_id.pow_const 2)
      exact hi.integrable_mul (ha2 n).integrable_sq (hY2 n).integrable_sq
    have hsq : ∫ ω, a n ω ^ 2 * Y n ω ^ 2 ∂P ≤ A * B := by
      have hi : (fun ω => a n ω ^ 2) ⟂ᵢ[P] (fun ω => Y n ω ^ 2) :=
        (indepFun_of_past (hind n) (hY n)).comp (φ := fun x : ℝ => x ^ 2) (ψ := fun x : ℝ => x ^ 2) (measurable_id.pow_const 2) (measurable_id.pow_const 2)
      rw [hi.integral_fun_mul_eq_mul_integral (ha2 n).integrable_sq.aestronglyMeasurable (hY2 n).integrable_sq.aestronglyMeasurable]
      have p1 : 0 ≤ ∫ ω, a n ω ^ 2 ∂P := integral_nonneg fun ω => sq_nonneg _
      have p2 : 0 ≤ ∫ ω, Y n ω ^ 2 ∂P := integral_nonneg fun ω => sq_nonneg _
      exact mul_le_mul (hA n) (hB n) p2 (p1.trans (hA n))
    have hpL : MemLp (fun ω => a n ω * Y n ω) 2 P := by
      refine (memLp_two_iff_integrable_sq ((ha2 n).1.mul (hY2 n).1)).2 ?_
      simpa [mul_pow] using hprod
    refine ⟨?_, h2.add hpL, ?_⟩
    · exact (h1.mono (hmono (Nat.le_succ n)) le_rfl).add ((ha n).mul ((hY n).mono (hmono (Nat.le_succ n)) le_rfl))
    · have hcross : ∫ ω, a n ω * ((∑ r ∈ Finset.range n, a r ω * Y r ω) * Y n ω) ∂P = 0 := by
        have hi := indepFun_of_past (hind n) (h1.mul (hY n))
        have := hi.integral_mul_eq_mul_integral (ha2 n).1 (h2.1.mul (hY2 n).1)
        rw [h0 n, zero_mul] at this
        exact this
      have hci : Integrable (fun ω => a n ω * ((∑ r ∈ Finset.range n, a r ω * Y r ω) * Y n ω)) P := by
        have := h2.integrable_mul hpL
        refine this.congr (ae_of_all _ fun ω => ?_)
        simp only [Pi.mul_apply]
        ring
      have hexp : ∀ ω, (∑ r ∈ Finset.range n, a r ω * Y r ω + a n ω * Y n ω) ^ 2 = (∑ r ∈ Finset.range n, a r ω * Y r ω) ^ 2 +
          2 * (a n ω * ((∑ r ∈ Finset.range n, a r ω * Y r ω) * Y n ω)) + a n ω ^ 2 * Y n ω ^ 2 := fun ω => by ring
      simp only [hexp]
      have e1 := integral_add (h2.integrable_sq.add (hci.const_mul 2)) hprod
      have e2 := integral_add h2.integrable_sq (hci.const_mul 2)
      rw [integral_const_mul, hcross] at e2
      simp only [Pi.add_apply] at e1
      rw [e1, e2]
      push_cast
      linarith

/-- Chebyshev's inequality for such sums. -/
theorem sum_likely {S : Ω → ℝ} (hS : MemLp S 2 P) {n : ℕ} (hn : 0 < n) {K η : ℝ} (hη : 0 < η) (hK : ∫ ω, S ω ^ 2 ∂P ≤ n * K) :
    P {ω | ¬ |S ω| ≤ η * n} ≤ ENNReal.ofReal (K / η ^ 2 / n) := by
  have hn' : (0 : ℝ) < n := by exact_mod_cast hn
  have h1 := mul_meas_ge_le_integral_of_nonneg (μ := P) (f := fun ω => S ω ^ 2) (ae_of_all _ fun ω => sq_nonneg _) hS.integrable_sq
    ((η * n) ^ 2)
  have h2 : P {ω | ¬ |S ω| ≤ η * n} ≤ P {ω | (η * n) ^ 2 ≤ S ω ^ 2} := by
    refine measure_mono fun ω hω => ?_
    have h3 : η * n < |S ω| := not_le.1 hω
    change (η * n) ^ 2 ≤ S ω ^ 2
    rw [← sq_abs (S ω)]
    exact pow_le_pow_left₀ (by positivity) h3.le 2
  refine h2.trans ?_
  rw [← ofReal_measureReal]
  refine ENNReal.ofReal_le_ofReal ?_
  rw [div_div, le_div_iff₀ (by positivity)]
  have h4 := h1.trans hK
  have h5 : n * (P.real {ω | (η * n) ^ 2 ≤ S ω ^ 2} * (η ^ 2 * n)) ≤ n * K := by
    refine le_trans (le_of_eq ?_) h4
    ring
  exact le_of_mul_le_mul_left h5 hn'

end

/-! ### Series -/

section
variable {Ω : Type} {d p : ℕ} {u : ℕ → ℕ → ℕ → ℝ} {x e : ℕ → Ω → Fin d → ℝ}

/-- What is known before time `t`. -/
@[instance_reducible]
def past (x : ℕ → Ω → Fin d → ℝ) (t : ℕ) : MeasurableSpace Ω := MeasurableSpace.comap (fun ω (s : Fin t) => x s ω) inferInstance

theorem past_le [m0 : MeasurableSpace Ω] (hx : ∀ t, Measurable (x t)) (t : ℕ) : past x t ≤ m0 :=
  (measurable_pi_iff.2 fun s : Fin t => hx s).comap_le

theorem past_value {s t : ℕ} (h : s < t) : Measurable[past x t] (x s) :=
  (measurable_pi_apply (⟨s, h⟩ : Fin t)).comp (comap_measurable (fun ω (s : Fin t) => x s ω))

theorem past_mono : Monotone (past x) := by
  intro s t h
  let := past x t
  have h1 : Measurable (fun ω (i : Fin s) => x i ω) := measurable_pi_iff.2 fun i : Fin s => past_value (lt_of_lt_of_le i.2 h)
  exact h1.comap_le

theorem past_error (hF : ∀ ω, Follows d p u (x · ω) (e · ω)) {t : ℕ} (ht : p ≤ t) : Measurable[past x (t + 1)] (e t) := by
  let := past x (t + 1)
  refine measurable_pi_iff.2 fun j => ?_
  have h1 : ∀ (s : ℕ) (i : Fin d), s < t + 1 → Measurable (fun ω => x s ω i) := fun s i hs =>
    (measurable_pi_apply i).comp (past_value hs)
  have h2 : (fun ω => e t ω j) = fun ω => x t ω j - ∑ i, x t ω i * u 0 i j -
      ∑ k ∈ Finset.range p, ∑ i, x (t - (k + 1)) ω i * u (k + 1) i j := by
    funext ω
    have := hF ω t ht j
    linarith
  rw [h2]
  refine ((h1 t j (by omega)).sub (Finset.measurable_sum _ fun i _ => (h1 t i (by omega)).mul_const _)).sub ?_
  exact Finset.measurable_sum _ fun k _ => Finset.measurable_sum _ fun i _ => (h1 _ i (by omega)).mul_const _

end

section
variable {Ω : Type} [m0 : MeasurableSpace Ω] {P : Measure Ω} [IsProbabilityMeasure P] {d p : ℕ} {u : ℕ → ℕ → ℕ → ℝ} {v C : ℝ}
  {x e : ℕ → Ω → Fin d → ℝ}

/-- A sum of products of a function of the errors and of something known before. -/
theorem errors_likely (hF : ∀ ω, Follows d p u (x · ω) (e · ω)) (h : Innovations P d p v C x e) {s : ℕ} (hs : p ≤ s)
    {g : (Fin d → ℝ) → ℝ} (hg : Measurable g) {Y : ℕ → Ω → ℝ} (hY : ∀ r, Measurable[past x (r + s)] (Y r))
    (h0 : ∀ t, p ≤ t → ∫ ω, g (e t ω) ∂P = 0) {A B : ℝ} (hg2 : ∀ t, p ≤ t → Integrable (fun ω => g (e t ω) ^ 2) P ∧ ∫ ω, g (e t ω) ^ 2 ∂P ≤ A)
    (hY2 : ∀ r, Integrable (fun ω => Y r ω ^ 2) P ∧ ∫ ω, Y r ω ^ 2 ∂P ≤ B) {n : ℕ} (hn : 0 < n) {η : ℝ} (hη : 0 < η) :
    P {ω | ¬ |∑ r ∈ Finset.range n, g (e (r + s) ω) * Y r ω| ≤ η * n} ≤ ENNReal.ofReal (A * B / η ^ 2 / n) := by
  have hme : ∀ r, Measurable[past x (r + s + 1)] (e (r + s)) := fun r => past_error hF (by omega)
  have ha : ∀ r, Measurable[past x (r + 1 + s)] (fun ω => g (e (r + s) ω)) := fun r => by
    have := hg.comp (hme r)
    rw [show r + 1 + s = r + s + 1 by omega]
    exact this
  have h1 := sum_square (P := P) (𝒢 := fun r => past x (r + s))
    (fun a b hab => past_mono (by omega)) ha hY ?_ (fun r => ?_) (fun r => ?_) (fun r => h0 _ (by omega)) (fun r => (hg2 _ (by omega)).2)
    (fun r => (hY2 r).2) n
  · exact sum_likely h1.2.1 hn hη h1.2.2
  · intro r
    have h2 := h.indep (r + s) (by omega)
    rw [IndepFun_iff_Indep] at h2
    refine indep_of_indep_of_le_left h2 ?_
    exact (hg.comp (comap_measurable (e (r + s)))).comap_le
  · refine (memLp_two_iff_integrable_sq ?_).2 (hg2 _ (by omega)).1
    exact ((ha r).mono (past_le h.measurable _) le_rfl).aestronglyMeasurable
  · refine (memLp_two_iff_integrable_sq ?_).2 (hY2 r).1
    exact ((hY r).mono (past_le h.measurable _) le_rfl).aestronglyMeasurable

omit [IsProbabilityMeasure P] in
theorem error_square (hF : ∀ ω, Follows d p u (x · ω) (e · ω)) (h : Innovations P d p v C x e) {t : ℕ} (ht : p ≤ t) (j k : Fin d) :
    Integrable (fun ω => (e t ω j * e t ω k) ^ 2) P ∧ ∫ ω, (e t ω j * e t ω k) ^ 2 ∂P ≤ C := by
  have hm : ∀ i, Measurable (fun ω => e t ω i) := fun i =>
    (measurable_pi_apply i).comp ((past_error hF ht).mono (past_le h.measurable _) le_rfl)
  have hj := h.fourth t ht j
  have hk := h.fourth t ht k
  have hle : ∀ ω, (e t ω j * e t ω k) ^ 2 ≤ (1 / 2) * (e t ω j ^ 4 + e t ω k ^ 4) := fun ω => by
    nlinarith [sq_nonneg (e t ω j ^ 2 - e t ω k ^ 2)]
  have hI : Integrable (fun ω => (1 / 2) * (e t ω j ^ 4 + e t ω k ^ 4)) P := (hj.1.add hk.1).const_mul _
  have h1 : Integrable (fun ω => (e t ω j * e t ω k) ^ 2) P := by
    refine hI.mono' (((hm j).mul (hm k)).pow_const 2).aestronglyMeasurable (ae_of_all _ fun ω => ?_)
    rw [Real.norm_of_nonneg (sq_nonneg _)]
    exact hle ω
  refine ⟨h1, (integral_mono h1 hI hle).trans ?_⟩
  rw [integral_const_mul, integral_add hj.1 hk.1]
  linarith [hj.2, hk.2]

/-- The errors are close to what the proof needs, but for a probability which vanishes as the series grows. -/
theorem close_likely (hv : 0 ≤ v) (hF : ∀ ω, Follows d p u (x · ω) (e · ω)) (h : Innovations P d p v C x e) {s : ℕ} (hs : p ≤ s) {n : ℕ}
    (hn : 0 < n) {η : ℝ} (hη : 0 < η) :
    P {ω | ¬ Close p v (x · ω) (e · ω) s n η} ≤
      ENNReal.ofReal ((d * d * (2 * C + 2 * v ^ 2) + d * p * d * (v * C)) / η ^ 2 / n) := by
  have hme : ∀ t, p ≤ t → ∀ i, Measurable (fun ω => e t ω i) := fun t ht i =>
    (measurable_pi_apply i).comp ((past_error hF ht).mono (past_le h.measurable _) le_rfl)
  have hC : 0 ≤ C ∨ d = 0 := by
    rcases Nat.eq_zero_or_pos d with hd | hd
    · exact Or.inr hd
    · exact Or.inl (le_trans (integral_nonneg fun ω => sq_nonneg _) (h.square 0 ⟨0, hd⟩).2)
  -- products of errors
  have hA : ∀ j k : Fin d, P {ω | ¬ |∑ r ∈ Finset.range n, (e (r + s) ω j * e (r + s) ω k - if j = k then v else 0)| ≤ η * n} ≤
      ENNReal.ofReal ((2 * C + 2 * v ^ 2) / η ^ 2 / n) := by
    intro j k
    have hint : ∀ t, p ≤ t → Integrable (fun ω => e t ω j * e t ω k) P := fun t ht =>
      ((memLp_two_iff_integrable_sq ((hme t ht j).mul (hme t ht k)).aestronglyMeasurable).2 (error_square hF h ht j k).1).integrable
        (by norm_num)
    have h1 := errors_likely hF h hs (g := fun y => y j * y k - if j = k then v else 0)
      (((measurable_pi_apply j).mul (measurable_pi_apply k)).sub_const _) (Y := fun _ _ => 1) (fun r => measurable_const)
      (A := 2 * C + 2 * v ^ 2) (B := 1) (fun t ht => ?_) (fun t ht => ?_) (fun r => ?_) hn hη
    · simpa using h1
    · rw [integral_sub (hint t ht) (integrable_const _), h.product t ht]
      simp
    · have h2 := error_square hF h ht j k
      have hle : ∀ ω, (e t ω j * e t ω k - if j = k then v else 0) ^ 2 ≤ 2 * (e t ω j * e t ω k) ^ 2 + 2 * v ^ 2 := fun ω => by
        split_ifs
        · nlinarith [sq_nonneg (e t ω j * e t ω k + v)]
        · nlinarith [sq_nonneg (e t ω j * e t ω k), sq_nonneg v]
      have hI : Integrable (fun ω => 2 * (e t ω j * e t ω k) ^ 2 + 2 * v ^ 2) P := (h2.1.const_mul 2).add (integrable_const _)
      have h3 : Integrable (fun ω => (e t ω j * e t ω k - if j = k then v else 0) ^ 2) P := by
        refine hI.mono' ((((hme t ht j).mul (hme t ht k)).sub_const _).pow_const 2).aestronglyMeasurable (ae_of_all _ fun ω => ?_)
        rw [Real.norm_of_nonneg (sq_nonneg _)]
        exact hle ω
      refine ⟨h3, (integral_mono h3 hI hle).trans ?_⟩
      rw [integral_add (h2.1.const_mul 2) (integrable_const _), integral_const_mul]
      simp only [integral_const, probReal_univ, smul_eq_mul, one_mul]
      linarith [h2.2]
    · simp
  -- products with earlier values
  have hB : ∀ (j : Fin d) (k : Fin p) (i : Fin d), P {ω | ¬ |∑ r ∈ Finset.range n, e (r + s) ω j * x (r + s - (k + 1)) ω i| ≤ η * n} ≤
      ENNReal.ofReal ((v * C) / η ^ 2 / n) := by
    intro j k i
    refine errors_likely hF h hs (g := fun y => y j) (measurable_pi_apply j) (Y := fun r ω => x (r + s - (k + 1)) ω i) (fun r => ?_)
      (fun t ht => h.mean t ht j) (fun t ht => ?_) (fun r => h.square _ i) hn hη
    · exact (measurable_pi_apply i).comp (past_value (by have := k.2; omega))
    · have h1 := h.product t ht j j
      rw [if_pos rfl] at h1
      have h2 : Integrable (fun ω => e t ω j ^ 2) P := by
        have h4 := (h.fourth t ht j).1
        have : MemLp (fun ω => e t ω j ^ 2) 2 P := by
          refine (memLp_two_iff_integrable_sq ((hme t ht j).pow_const 2).aestronglyMeasurable).2 ?_
          refine h4.congr (ae_of_all _ fun ω => ?_)
          ring
        exact this.integrable (by norm_num)
      refine ⟨h2, le_of_eq ?_⟩
      rw [← h1]
      refine integral_congr_ae (ae_of_all _ fun ω => ?_)
      simp only []
      ring
  have hsub : {ω | ¬ Close p v (x · ω) (e · ω) s n η} ⊆
      (⋃ jk : Fin d × Fin d, {ω | ¬ |∑ r ∈ Finset.range n, (e (r + s) ω jk.1 * e (r + s) ω jk.2 - if jk.1 = jk.2 then v else 0)| ≤ η * n}) ∪
      (⋃ jki : Fin d × Fin p × Fin d, {ω | ¬ |∑ r ∈ Finset.range n, e (r + s) ω jki.1 * x (r + s - (jki.2.1 + 1)) ω jki.2.2| ≤ η * n}) := by
    intro ω hω
    by_contra hc
    simp only [Set.mem_union, Set.mem_iUnion, Set.mem_ofPred_eq, not_or, not_exists, not_not] at hc
    exact hω ⟨fun j k => hc.1 (j, k), fun j k hk i => hc.2 (j, ⟨k, hk⟩, i)⟩
  refine (measure_mono hsub).trans ((measure_union_le _ _).trans ?_)
  have hA0 : 0 ≤ (d : ℝ) * d * (2 * C + 2 * v ^ 2) := by
    rcases hC with hC | rfl
    · positivity
    · simp
  have hB0 : 0 ≤ (d : ℝ) * p * d * (v * C) := by
    rcases hC with hC | rfl
    · positivity
    · simp
  have e1 : (d * d * (2 * C + 2 * v ^ 2) + d * p * d * (v * C)) / η ^ 2 / n = (d * d * (2 * C + 2 * v ^ 2)) / η ^ 2 / n +
      (d * p * d * (v * C)) / η ^ 2 / n := by ring
  rw [e1, ENNReal.ofReal_add (by positivity) (by positivity)]
  refine add_le_add ?_ ?_
  · refine (measure_iUnion_fintype_le _ _).trans ((Finset.sum_le_sum fun jk _ => hA jk.1 jk.2).trans ?_)
    rw [Finset.sum_const, nsmul_eq_mul]
    simp only [Finset.card_univ, Fintype.card_prod, Fintype.card_fin]
    rw [← ENNReal.ofReal_natCast, ← ENNReal.ofReal_mul (by positivity)]
    refine ENNReal.ofReal_le_ofReal (le_of_eq ?_)
    push_cast
    ring
  · refine (measure_iUnion_fintype_le _ _).trans ((Finset.sum_le_sum fun jki _ => hB jki.1 jki.2.1 jki.2.2).trans ?_)
    rw [Finset.sum_const, nsmul_eq_mul]
    simp only [Finset.card_univ, Fintype.card_prod, Fintype.card_fin]
    rw [← ENNReal.ofReal_natCast, ← ENNReal.ofReal_mul (by positivity)]
    refine ENNReal.ofReal_le_ofReal (le_of_eq ?_)
    push_cast
    ring

end

end Verif.Recover
