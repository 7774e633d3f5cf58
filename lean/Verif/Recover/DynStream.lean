import Verif.Recover.DynGenerated
import Mathlib.Analysis.PSeries
import Mathlib.MeasureTheory.OuterMeasure.BorelCantelli

/-!
# C138 for a growing time series

The averages of `Recover/Martingale` vanish almost surely: along squares by Borel and Cantelli, and between squares because a block between two squares is short.
-/

namespace Verif.Recover

open MeasureTheory ProbabilityTheory Filter Verif.Notears Verif.Dynotears Verif.Generators Verif.Str

section
variable {Ω : Type} [m0 : MeasurableSpace Ω] {P : Measure Ω} [IsProbabilityMeasure P]

omit [IsProbabilityMeasure P] in
/-- The mean square of a sum of absolute values. -/
theorem block_square {w : ℕ → Ω → ℝ} {K : ℝ} (hw : ∀ r, MemLp (w r) 2 P) (hK : ∀ r, ∫ ω, w r ω ^ 2 ∂P ≤ K) (s m : ℕ) :
    MemLp (fun ω => ∑ r ∈ Finset.range m, |w (s + r) ω|) 2 P ∧ ∫ ω, (∑ r ∈ Finset.range m, |w (s + r) ω|) ^ 2 ∂P ≤ m * (m * K) := by
  have h1 : MemLp (fun ω => ∑ r ∈ Finset.range m, |w (s + r) ω|) 2 P := memLp_finsetSum _ fun r _ => (hw (s + r)).abs
  refine ⟨h1, ?_⟩
  have h2 : ∀ ω, (∑ r ∈ Finset.range m, |w (s + r) ω|) ^ 2 ≤ m * ∑ r ∈ Finset.range m, w (s + r) ω ^ 2 := fun ω => by
    have := sq_sum_le_card_mul_sum_sq (s := Finset.range m) (f := fun r => |w (s + r) ω|)
    simpa only [Finset.card_range, sq_abs] using this
  have hI : Integrable (fun ω => ∑ r ∈ Finset.range m, w (s + r) ω ^ 2) P := integrable_finsetSum _ fun r _ => (hw (s + r)).integrable_sq
  refine (integral_mono h1.integrable_sq (hI.const_mul _) h2).trans ?_
  rw [integral_const_mul, integral_finsetSum _ fun r _ => (hw (s + r)).integrable_sq]
  refine mul_le_mul_of_nonneg_left ?_ (Nat.cast_nonneg m)
  refine (Finset.sum_le_sum fun r _ => hK (s + r)).trans ?_
  rw [Finset.sum_const, Finset.card_range, nsmul_eq_mul]

/-- Averages vanish if the mean squares of the sums grow at most in proportion to their length. -/
theorem averages_vanish {w : ℕ → Ω → ℝ} {K : ℝ} (hw : ∀ r, MemLp (w r) 2 P) (hK : ∀ r, ∫ ω, w r ω ^ 2 ∂P ≤ K)
    (hS : ∀ n : ℕ, ∫ ω, (∑ r ∈ Finset.range n, w r ω) ^ 2 ∂P ≤ n * K) {η : ℝ} (hη : 0 < η) :
    ∀ᵐ ω ∂P, ∀ᶠ n : ℕ in atTop, |∑ r ∈ Finset.range n, w r ω| ≤ η * n := by
  have hK0 : 0 ≤ K := le_trans (integral_nonneg fun ω => sq_nonneg _) (hK 0)
  have hη2 : 0 < η / 2 := by positivity
  let A : ℕ → Set Ω := fun k => {ω | ¬ |∑ r ∈ Finset.range ((k + 1) ^ 2), w r ω| ≤ η / 2 * ((k + 1) ^ 2 : ℕ)}
  let B : ℕ → Set Ω := fun k => {ω | ¬ |(∑ r ∈ Finset.range (2 * (k + 1) + 1), |w ((k + 1) ^ 2 + r) ω| : ℝ)| ≤ η / 2 * ((k + 1) ^ 2 : ℕ)}
  have hpos : ∀ k : ℕ, 0 < (k + 1) ^ 2 := fun k => by positivity
  have hA : ∀ k, P (A k) ≤ ENNReal.ofReal (K / (η / 2) ^ 2 * (1 / ((k + 1 : ℕ) : ℝ) ^ 2)) := by
    intro k
    refine (sum_likely (memLp_finsetSum _ fun r _ => hw r) (hpos k) hη2 (hS _)).trans (le_of_eq ?_)
    push_cast
    rw [mul_one_div]
  have hB : ∀ k, P (B k) ≤ ENNReal.ofReal (9 * K / (η / 2) ^ 2 * (1 / ((k + 1 : ℕ) : ℝ) ^ 2)) := by
    intro k
    obtain ⟨h1, h2⟩ := block_square hw hK ((k + 1) ^ 2) (2 * (k + 1) + 1)
    refine (sum_likely (K := 9 * K) h1 (hpos k) hη2 (h2.trans ?_)).trans (le_of_eq ?_)
    · push_cast
      have hk : (0 : ℝ) ≤ k := Nat.cast_nonneg k
      have : (2 * ((k : ℝ) + 1) + 1) * (2 * ((k : ℝ) + 1) + 1) ≤ ((k : ℝ) + 1) ^ 2 * 9 := by nlinarith
      nlinarith [mul_le_mul_of_nonneg_right this hK0]
    · push_cast
      rw [mul_one_div]
  have hsum : Summable fun k : ℕ => 1 / ((k + 1 : ℕ) : ℝ) ^ 2 := (summable_nat_add_iff 1).2 (Real.summable_one_div_nat_pow.2 (by norm_num))
  have hfin : ∀ {c : ℝ} {s : ℕ → Set Ω}, 0 ≤ c → (∀ k, P (s k) ≤ ENNReal.ofReal (c * (1 / ((k + 1 : ℕ) : ℝ) ^ 2))) → ∑' k, P (s k) ≠ ⊤ := by
    intro c s hc hs
    refine ne_top_of_le_ne_top ?_ (ENNReal.tsum_le_tsum hs)
    rw [← ENNReal.ofReal_tsum_of_nonneg (fun k => by positivity) (hsum.mul_left c)]
    exact ENNReal.ofReal_ne_top
  filter_upwards [ae_eventually_notMem (hfin (by positivity) hA), ae_eventually_notMem (hfin (by positivity) hB)] with ω h1 h2
  obtain ⟨k₀, hk₀⟩ := eventually_atTop.1 (h1.and h2)
  refine eventually_atTop.2 ⟨(k₀ + 1) ^ 2, fun n hn => ?_⟩
  have hs1 : Nat.sqrt n * Nat.sqrt n ≤ n := Nat.sqrt_le n
  have hs2 : n < (Nat.sqrt n + 1) * (Nat.sqrt n + 1) := Nat.lt_succ_sqrt n
  have hs3 : k₀ + 1 ≤ Nat.sqrt n := by
    rw [Nat.le_sqrt]
    nlinarith
  obtain ⟨k, hk⟩ : ∃ k, Nat.sqrt n = k + 1 := ⟨Nat.sqrt n - 1, by omega⟩
  rw [hk] at hs1 hs2 hs3
  obtain ⟨c1, c2⟩ := hk₀ k (by omega)
  have c1 : |∑ r ∈ Finset.range ((k + 1) ^ 2), w r ω| ≤ η / 2 * ((k + 1) ^ 2 : ℕ) := not_not.1 c1
  have c2 : |(∑ r ∈ Finset.range (2 * (k + 1) + 1), |w ((k + 1) ^ 2 + r) ω| : ℝ)| ≤ η / 2 * ((k + 1) ^ 2 : ℕ) := not_not.1 c2
  obtain ⟨m, hm⟩ : ∃ m, n = (k + 1) ^ 2 + m := ⟨n - (k + 1) ^ 2, by rw [sq]; omega⟩
  have hm2 : m ≤ 2 * (k + 1) + 1 := by
    rw [hm] at hs2
    nlinarith
  have hle : (((k + 1) ^ 2 : ℕ) : ℝ) ≤ n := by
    rw [hm]
    exact_mod_cast Nat.le_add_right _ _
  have h3 : ∑ r ∈ Finset.range m, |w ((k + 1) ^ 2 + r) ω| ≤ ∑ r ∈ Finset.range (2 * (k + 1) + 1), |w ((k + 1) ^ 2 + r) ω| :=
    Finset.sum_le_sum_of_subset_of_nonneg (Finset.range_subset_range.2 hm2) fun _ _ _ => abs_nonneg _
  have h4 : |∑ r ∈ Finset.range n, w r ω| ≤ |∑ r ∈ Finset.range ((k + 1) ^ 2), w r ω| + ∑ r ∈ Finset.range m, |w ((k + 1) ^ 2 + r) ω| := by
    rw [hm, Finset.sum_range_add]
    exact (abs_add_le _ _).trans (add_le_add le_rfl (Finset.abs_sum_le_sum_abs _ _))
  have h5 := le_trans (le_abs_self _) c2
  nlinarith

end

section
variable {Ω : Type} [m0 : MeasurableSpace Ω] {P : Measure Ω} [IsProbabilityMeasure P] {d p : ℕ} {u : ℕ → ℕ → ℕ → ℝ} {v C : ℝ}
  {x e : ℕ → Ω → Fin d → ℝ}

/-- The average of the products of a function of the errors and of something known before vanishes. -/
theorem errors_vanish (hF : ∀ ω, Follows d p u (x · ω) (e · ω)) (h : Innovations P d p v C x e) {s : ℕ} (hs : p ≤ s)
    {g : (Fin d → ℝ) → ℝ} (hg : Measurable g) {Y : ℕ → Ω → ℝ} (hY : ∀ r, Measurable[past x (r + s)] (Y r))
    (h0 : ∀ t, p ≤ t → ∫ ω, g (e t ω) ∂P = 0) {A B : ℝ} (hg2 : ∀ t, p ≤ t → Integrable (fun ω => g (e t ω) ^ 2) P ∧ ∫ ω, g (e t ω) ^ 2 ∂P ≤ A)
    (hY2 : ∀ r, Integrable (fun ω => Y r ω ^ 2) P ∧ ∫ ω, Y r ω ^ 2 ∂P ≤ B) {η : ℝ} (hη : 0 < η) :
    ∀ᵐ ω ∂P, ∀ᶠ n : ℕ in atTop, |∑ r ∈ Finset.range n, g (e (r + s) ω) * Y r ω| ≤ η * n := by
  have hme : ∀ r, Measurable[past x (r + s + 1)] (e (r + s)) := fun r => past_error hF (by omega)
  have ha : ∀ r, Measurable[past x (r + 1 + s)] (fun ω => g (e (r + s) ω)) := fun r => by
    have := hg.comp (hme r)
    rw [show r + 1 + s = r + s + 1 by omega]
    exact this
  have hind : ∀ r, Indep (MeasurableSpace.comap (fun ω => g (e (r + s) ω)) inferInstance) (past x (r + s)) P := by
    intro r
    have h2 := h.indep (r + s) (by omega)
    rw [IndepFun_iff_Indep] at h2
    refine indep_of_indep_of_le_left h2 ?_
    exact (hg.comp (comap_measurable (e (r + s)))).comap_le
  have hga : ∀ r, MemLp (fun ω => g (e (r + s) ω)) 2 P := fun r =>
    (memLp_two_iff_integrable_sq ((ha r).mono (past_le h.measurable _) le_rfl).aestronglyMeasurable).2 (hg2 _ (by omega)).1
  have hYa : ∀ r, MemLp (Y r) 2 P := fun r =>
    (memLp_two_iff_integrable_sq ((hY r).mono (past_le h.measurable _) le_rfl).aestronglyMeasurable).2 (hY2 r).1
  have h1 := sum_square (P := P) (𝒢 := fun r => past x (r + s)) (fun a b hab => past_mono (by omega)) ha hY hind hga hYa
    (fun r => h0 _ (by omega)) (fun r => (hg2 _ (by omega)).2) (fun r => (hY2 r).2)
  have h2 : ∀ r, Integrable (fun ω => (g (e (r + s) ω) * Y r ω) ^ 2) P ∧ ∫ ω, (g (e (r + s) ω) * Y r ω) ^ 2 ∂P ≤ A * B := by
    intro r
    have hi : (fun ω => g (e (r + s) ω) ^ 2) ⟂ᵢ[P] (fun ω => Y r ω ^ 2) :=
      (indepFun_of_past (hind r) (hY r)).comp (φ := fun x : ℝ => x ^ 2) (ψ := fun x : ℝ => x ^ 2) (measurable_id.pow_const 2) (measurable_id.pow_const 2)
    simp only [mul_pow]
    refine ⟨hi.integrable_mul (hga r).integrable_sq (hYa r).integrable_sq, ?_⟩
    rw [hi.integral_fun_mul_eq_mul_integral (hga r).integrable_sq.aestronglyMeasurable (hYa r).integrable_sq.aestronglyMeasurable]
    have p1 : 0 ≤ ∫ ω, g (e (r + s) ω) ^ 2 ∂P := integral_nonneg fun ω => sq_nonneg _
    have p2 : 0 ≤ ∫ ω, Y r ω ^ 2 ∂P := integral_nonneg fun ω => sq_nonneg _
    exact mul_le_mul (hg2 _ (by omega)).2 (hY2 r).2 p2 (p1.trans (hg2 _ (by omega)).2)
  refine averages_vanish (fun r => ?_) (fun r => (h2 r).2) (fun n => (h1 n).2.2) hη
  exact (memLp_two_iff_integrable_sq ((hga r).1.mul (hYa r).1)).2 (h2 r).1

/-- The errors are close to what the proof needs, from some time on. -/
theorem close_eventually (hF : ∀ ω, Follows d p u (x · ω) (e · ω)) (h : Innovations P d p v C x e) {s : ℕ} (hs : p ≤ s) {η : ℝ} (hη : 0 < η) :
    ∀ᵐ ω ∂P, ∀ᶠ n : ℕ in atTop, Close p v (x · ω) (e · ω) s n η := by
  have hme : ∀ t, p ≤ t → ∀ i, Measurable (fun ω => e t ω i) := fun t ht i =>
    (measurable_pi_apply i).comp ((past_error hF ht).mono (past_le h.measurable _) le_rfl)
  -- products of errors
  have hA : ∀ q : Fin d × Fin d, ∀ᵐ ω ∂P, ∀ᶠ n : ℕ in atTop,
      |∑ r ∈ Finset.range n, (e (r + s) ω q.1 * e (r + s) ω q.2 - if q.1 = q.2 then v else 0)| ≤ η * n := by
    rintro ⟨j, k⟩
    have hint : ∀ t, p ≤ t → Integrable (fun ω => e t ω j * e t ω k) P := fun t ht =>
      ((memLp_two_iff_integrable_sq ((hme t ht j).mul (hme t ht k)).aestronglyMeasurable).2 (error_square hF h ht j k).1).integrable
        (by norm_num)
    have h1 := errors_vanish hF h hs (g := fun y => y j * y k - if j = k then v else 0)
      (((measurable_pi_apply j).mul (measurable_pi_apply k)).sub_const _) (Y := fun _ _ => 1) (fun r => measurable_const)
      (A := 2 * C + 2 * v ^ 2) (B := 1) (fun t ht => ?_) (fun t ht => ?_) (fun r => ?_) hη
    · simpa using h1
    · rw [integral_sub (hint t ht) (integrable_const _), h.product t ht]
      simp
    · have h2 := error_square hF h ht j k
      have hle : ∀ ω, (e t ω j * e t ω k - if j = k then v else 0) ^ 2 ≤ 2 * (e t ω j * e t ω k) ^ 2 + 2 * v ^ 2 := fun ω => by
        split_ifs
        · nlinarith [sq_nonneg (e t ω j * e t ω k + v)]
        · nlinarith [sq_nonneg (e t ω j * e t ω k), sq_nonneg v]
      have hI : Integrable (fun ω => 2 * (e t ω j * e t ω k) ^ 2 + 2 * v ^ 2) P := (h2.1.const_mul 2).add (integrable_const _)
      have h3 : Integrable (fun ω => (e t ω j * e t ω k - if j = k then v else 0) ^ 2) P := by
        refine hI.mono' ((((hme t ht j).mul (hme t ht k)).sub_const _).pow_const 2).aestronglyMeasurable (ae_of_all _ fun ω => ?_)
        rw [Real.norm_of_nonneg (sq_nonneg _)]
        exact hle ω
      refine ⟨h3, (integral_mono h3 hI hle).trans ?_⟩
      rw [integral_add (h2.1.const_mul 2) (integrable_const _), integral_const_mul]
      simp only [integral_const, probReal_univ, smul_eq_mul, one_mul]
      linarith [h2.2]
    · simp
  -- products with earlier values
  have hB : ∀ q : Fin d × Fin p × Fin d, ∀ᵐ ω ∂P, ∀ᶠ n : ℕ in atTop,
      |∑ r ∈ Finset.range n, e (r + s) ω q.1 * x (r + s - (q.2.1 + 1)) ω q.2.2| ≤ η * n := by
    rintro ⟨j, k, i⟩
    refine errors_vanish hF h hs (g := fun y => y j) (measurable_pi_apply j) (Y := fun r ω => x (r + s - (k + 1)) ω i) (fun r => ?_)
      (fun t ht => h.mean t ht j) (A := v) (fun t ht => ?_) (fun r => h.square _ i) hη
    · exact (measurable_pi_apply i).comp (past_value (by have := k.2; omega))
    · have h1 := h.product t ht j j
      rw [if_pos rfl] at h1
      have h2 : Integrable (fun ω => e t ω j ^ 2) P := by
        have h4 := (h.fourth t ht j).1
        have : MemLp (fun ω => e t ω j ^ 2) 2 P := by
          refine (memLp_two_iff_integrable_sq ((hme t ht j).pow_const 2).aestronglyMeasurable).2 ?_
          refine h4.congr (ae_of_all _ fun ω => ?_)
          ring
        exact this.integrable (by norm_num)
      refine ⟨h2, le_of_eq ?_⟩
      rw [← h1]
      refine integral_congr_ae (ae_of_all _ fun ω => ?_)
      simp only []
      ring
  filter_upwards [ae_all_iff.2 hA, ae_all_iff.2 hB] with ω h1 h2
  filter_upwards [eventually_all.2 h1, eventually_all.2 h2] with n c1 c2
  exact ⟨fun j k => c1 (j, k), fun j k hk i => c2 (j, ⟨k, hk⟩, i)⟩

end

/-- **C138**, growing series: let a series follow dynamic linear equations with the weights `u`, acyclic within a time step, with errors that are
independent of the past, uncorrelated and of the same size.  Then, almost surely, DYNOTEARS learns these equations from all sufficiently long initial parts of
the series. -/
theorem series_eventually_learned {d p : ℕ} (hd : d ≠ 0) {u : ℕ → ℕ → ℕ → ℝ} (hu : AcyclicWeights d (u 0)) {v ε : ℝ} (hv : 0 < v) (hε : 0 < ε) :
    ∃ δ > 0, ∀ (Ω : Type) (_ : MeasurableSpace Ω) (P : Measure Ω) (C : ℝ) (x e : ℕ → Ω → Fin d → ℝ), IsProbabilityMeasure P →
      (∀ ω, Follows d p u (x · ω) (e · ω)) → Innovations P d p v C x e →
      ∀ᵐ ω ∂P, ∀ᶠ n in atTop, ∀ X Xlags : Data ℝ, Windows d p n (x · ω) X Xlags → LearnsDyn d p X Xlags u ε δ := by
  obtain ⟨κ, hκ, η, hη, hlags⟩ := lagsVary_of_close (d := d) (p := p) hu
  obtain ⟨δ, hδ, hrec⟩ := dynotears_recovers (p := p) hd hu hκ hε
  refine ⟨min δ (δ * v), lt_min hδ (by positivity), fun Ω _ P C x e _ hF h => ?_⟩
  have h1 := close_eventually hF h (le_refl p) (show 0 < δ * v by positivity)
  have h2 : ∀ b : Fin p, ∀ᵐ ω ∂P, ∀ᶠ n : ℕ in atTop, Close p v (x · ω) (e · ω) (2 * p - 1 - b) n (η * v) := fun b =>
    close_eventually hF h (by have := b.2; omega) (by positivity)
  filter_upwards [h1, ae_all_iff.2 h2] with ω c1 c2
  have c3 : ∀ᶠ n : ℕ in atTop, ∀ b : Fin p, Close p v (x · ω) (e · ω) (2 * p - 1 - b) (n - p) (η * v) :=
    eventually_all.2 fun b => (tendsto_sub_atTop_nat p).eventually (c2 b)
  filter_upwards [c1, c3, eventually_ge_atTop (2 * p), eventually_gt_atTop 0] with n a1 a2 hnp hn
  intro X Xlags hW minimize fuel lambdaW lambdaA a g hm hr hmax h1 h2 h3 h4 h5 h6 h7
  have hE := hW.equalErrors (hF ω) hn hd a1
  have hL := hlags (x · ω) (e · ω) v n X Xlags hv (hF ω) hnp hn (fun b hb => a2 ⟨b, hb⟩) hW.rows hW.lagCols hW.lags
  exact hrec X Xlags v minimize fuel lambdaW lambdaA a g hW.cols hW.lagCols hv hE hL hm hr hmax h1 h2 (h3.trans (min_le_right _ _)) h4
    (h5.trans (min_le_left _ _)) h6 h7

/-- **C138** for generated data: almost surely, DYNOTEARS learns the weights, by position, from all sufficiently long data frames that `generate_dataframe_dynamic`
makes of one stream of noise. -/
theorem generated_series_eventually_learned {g : Graph Str ℝ} (hg : g.nodes.Nodup) (hd : intraNodes g ≠ []) {p : ℕ}
    (hp : (interNodes g).length = p * (intraNodes g).length) (hu : AcyclicWeights (intraNodes g).length (dynWeights g 0))
    {b : Fin (intraNodes g).length → ℝ} {ρ : ℝ} (hs : Stable (intraNodes g).length p (dynWeights g) b ρ) {semType : String}
    (hsem : semType ∈ ["linear-gauss", "linear-exp", "linear-gumbel"]) {ν : Measure ℝ} {v ε : ℝ} (hv : 0 < v) (hν : Centred ν v) (hε : 0 < ε) :
    ∃ δ > 0, ∀ (Ω : Type) (_ : MeasurableSpace Ω) (P : Measure Ω) (noise : Ω → ℕ → ℕ → ℝ) (order : List ℕ),
      IsProbabilityMeasure P → Iid P ν (fun (q : ℕ × Fin (intraNodes g).length) ω => noise ω q.1 q.2) →
      IsTopo (List.range (intraNodes g).length) (intraEdges (intraNodes g).length (dynWeights g 0)) order →
      ∀ᵐ ω ∂P, ∀ burnIn, ∀ᶠ n in atTop, ∃ F, generateDataframe g n burnIn semType none (noise ω) order = .ok F ∧
        LearnsDyn (intraNodes g).length p (asArray F (intraNodes g)) (asArray F (interNodes g)) (dynWeights g) ε δ := by
  obtain ⟨δ, hδ, h⟩ := series_eventually_learned (p := p) (fun h0 => hd (List.length_eq_zero_iff.1 h0)) hu hv hε
  refine ⟨δ, hδ, fun Ω _ P noise order _ hI ho => ?_⟩
  have h2 : ∀ burnIn : ℕ, _ := fun burnIn => h Ω _ P _ _ _ inferInstance (fun ω => (series_follows hu hp (noise ω) ho).shift burnIn)
    ((series_innovations hs hu hp ho hv hν hI).shift burnIn)
  filter_upwards [ae_all_iff.2 h2] with ω hω burnIn
  filter_upwards [hω burnIn, eventually_gt_atTop 0] with n hn hpos
  obtain ⟨F, hF⟩ := generateDataframe_succeeds (p := p) hd hu hp hsem n burnIn none (noise ω) order
  exact ⟨F, hF, hn _ _ (generated_windows hg hp hpos hF)⟩

end Verif.Recover
