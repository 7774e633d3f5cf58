import Verif.Recover.Martingale

/-!
# C138: consistency of DYNOTEARS
-/

namespace Verif.Recover

open MeasureTheory ProbabilityTheory Verif.Notears Verif.Dynotears

/-- The errors of the equations in the arrays. -/
theorem Windows.residual {d p n : ℕ} {u : ℕ → ℕ → ℕ → ℝ} {x e : ℕ → Fin d → ℝ} {X Xlags : Data ℝ} (h : Windows d p n x X Xlags)
    (hF : Follows d p u x e) {r : ℕ} (hr : r < n) (j : Fin d) : residualDyn X Xlags p u r j = e (r + p) j := by
  obtain ⟨rfl, rfl, -, h1, h2⟩ := h
  unfold residualDyn
  have h3 := hF (r + p) (by omega) j
  rw [h1 r hr j, Finset.sum_range]
  have h4 : ∑ i : Fin X.cols, X.val r i * u 0 i j = ∑ i : Fin X.cols, x (r + p) i * u 0 i j :=
    Finset.sum_congr rfl fun i _ => by rw [h1 r hr i]
  have h5 : ∑ k ∈ Finset.range p, ∑ i ∈ Finset.range X.cols, Xlags.val r (k * X.cols + i) * u (k + 1) i j =
      ∑ k ∈ Finset.range p, ∑ i : Fin X.cols, x (r + p - (k + 1)) i * u (k + 1) i j := by
    refine Finset.sum_congr rfl fun k hk => ?_
    rw [Finset.sum_range]
    exact Finset.sum_congr rfl fun i _ => by rw [h2 r hr k (Finset.mem_range.1 hk) i]
  rw [h4, h5]
  linarith

theorem Windows.equalErrors {d p n : ℕ} {u : ℕ → ℕ → ℕ → ℝ} {x e : ℕ → Fin d → ℝ} {X Xlags : Data ℝ} (h : Windows d p n x X Xlags)
    (hF : Follows d p u x e) (hn : 0 < n) (hd : d ≠ 0) {v η : ℝ} (hc : Close p v x e p n η) : EqualErrorsDyn X Xlags p u v η := by
  have hn' : (0 : ℝ) < n := by exact_mod_cast hn
  constructor
  · intro j hj k hk
    rw [h.cols] at hj hk
    rw [h.rows]
    have h1 := hc.equal ⟨j, hj⟩ ⟨k, hk⟩
    rw [Finset.sum_sub_distrib, Finset.sum_const, Finset.card_range, nsmul_eq_mul] at h1
    have h2 : ∑ r ∈ Finset.range n, residualDyn X Xlags p u r j * residualDyn X Xlags p u r k =
        ∑ r ∈ Finset.range n, e (r + p) ⟨j, hj⟩ * e (r + p) ⟨k, hk⟩ := Finset.sum_congr rfl fun r hr => by
      rw [← h.residual hF (Finset.mem_range.1 hr) ⟨j, hj⟩, ← h.residual hF (Finset.mem_range.1 hr) ⟨k, hk⟩]
    simp only [Fin.mk.injEq] at h1
    rw [h2, div_sub' hn'.ne', abs_div, abs_of_pos hn', div_le_iff₀ hn']
    exact h1
  · intro j hj m hm
    rw [h.cols] at hj
    rw [h.lagCols] at hm
    rw [h.rows]
    have hk : m / d < p := Nat.div_lt_of_lt_mul (by rwa [Nat.mul_comm])
    have hi : m % d < d := Nat.mod_lt _ (Nat.pos_of_ne_zero hd)
    have h1 := hc.lags ⟨j, hj⟩ (m / d) hk ⟨m % d, hi⟩
    have h2 : ∑ r ∈ Finset.range n, residualDyn X Xlags p u r j * Xlags.val r m =
        ∑ r ∈ Finset.range n, e (r + p) ⟨j, hj⟩ * x (r + p - (m / d + 1)) ⟨m % d, hi⟩ := Finset.sum_congr rfl fun r hr => by
      rw [← h.residual hF (Finset.mem_range.1 hr) ⟨j, hj⟩, ← h.lags r (Finset.mem_range.1 hr) (m / d) hk ⟨m % d, hi⟩]
      simp only [Nat.div_add_mod']
    rw [h2, abs_div, abs_of_pos hn', div_le_iff₀ hn']
    exact h1

/-- **C138**: let a series follow dynamic linear equations with the weights `u`, acyclic within a time step, with errors that are
independent of the past, uncorrelated and of the same size.  Then the probability that DYNOTEARS does not learn these equations from the
first `n + p` observations is at most `c / n`; the constant depends on `u` and on the bounds of the moments only. -/
theorem series_learned {d p : ℕ} (hd : d ≠ 0) {u : ℕ → ℕ → ℕ → ℝ} (hu : AcyclicWeights d (u 0)) {v C ε : ℝ} (hv : 0 < v) (hε : 0 < ε) :
    ∃ δ > 0, ∃ c : ℝ, ∀ (Ω : Type) (_ : MeasurableSpace Ω) (P : Measure Ω) (x e : ℕ → Ω → Fin d → ℝ) (n : ℕ), IsProbabilityMeasure P →
      (∀ ω, Follows d p u (x · ω) (e · ω)) → Innovations P d p v C x e → 0 < n →
      P {ω | ¬ ∀ X Xlags : Data ℝ, Windows d p n (x · ω) X Xlags → LearnsDyn d p X Xlags u ε δ} ≤ ENNReal.ofReal (c / n) := by
  obtain ⟨κ, hκ, η, hη, hlags⟩ := lagsVary_of_close (d := d) (p := p) hu
  obtain ⟨δ, hδ, hrec⟩ := dynotears_recovers (p := p) hd hu hκ hε
  let K : ℝ := d * d * (2 * C + 2 * v ^ 2) + d * p * d * (v * C)
  by_cases hC : C < 0
  · refine ⟨1, one_pos, 0, fun Ω _ P x e n _ _ h _ => ?_⟩
    have := (h.square 0 ⟨0, Nat.pos_of_ne_zero hd⟩).2
    exact absurd (lt_of_le_of_lt (le_trans (integral_nonneg fun ω => sq_nonneg _) this) hC) (lt_irrefl _)
  have hC : 0 ≤ C := not_lt.1 hC
  have hK : 0 ≤ K := by positivity
  refine ⟨min δ (δ * v), lt_min hδ (by positivity), 2 * p + K / (δ * v) ^ 2 + p * (2 * K / (η * v) ^ 2),
    fun Ω _ P x e n _ hF h hn => ?_⟩
  have hn' : (0 : ℝ) < n := by exact_mod_cast hn
  by_cases hnp : n < 2 * p
  · refine prob_le_one.trans ?_
    rw [← ENNReal.ofReal_one]
    refine ENNReal.ofReal_le_ofReal ?_
    rw [le_div_iff₀ hn', one_mul]
    have h1 : (n : ℝ) ≤ 2 * p := by exact_mod_cast hnp.le
    have h2 : 0 ≤ K / (δ * v) ^ 2 := by positivity
    have h3 : 0 ≤ p * (2 * K / (η * v) ^ 2) := by positivity
    linarith
  have hnp : 2 * p ≤ n := not_lt.1 hnp
  have hsub : {ω | ¬ ∀ X Xlags : Data ℝ, Windows d p n (x · ω) X Xlags → LearnsDyn d p X Xlags u ε (min δ (δ * v))} ⊆
      {ω | ¬ Close p v (x · ω) (e · ω) p n (δ * v)} ∪
        ⋃ b : Fin p, {ω | ¬ Close p v (x · ω) (e · ω) (2 * p - 1 - b) (n - p) (η * v)} := by
    intro ω hω
    by_contra hc
    simp only [Set.mem_union, Set.mem_iUnion, Set.mem_ofPred_eq, not_or, not_exists, not_not] at hc
    refine hω fun X Xlags hW minimize fuel lambdaW lambdaA a g hm hr hmax h1 h2 h3 h4 h5 h6 h7 => ?_
    have hE := hW.equalErrors (hF ω) hn hd hc.1
    have hL := hlags (x · ω) (e · ω) v n X Xlags hv (hF ω) hnp hn (fun b hb => hc.2 ⟨b, hb⟩) hW.rows hW.lagCols hW.lags
    exact hrec X Xlags v minimize fuel lambdaW lambdaA a g hW.cols hW.lagCols hv hE hL hm hr hmax h1 h2 (h3.trans (min_le_right _ _)) h4
      (h5.trans (min_le_left _ _)) h6 h7
  refine (measure_mono hsub).trans ((measure_union_le _ _).trans ?_)
  have e1 : (2 * p + K / (δ * v) ^ 2 + p * (2 * K / (η * v) ^ 2)) / n = 2 * p / n + K / (δ * v) ^ 2 / n +
      p * (2 * K / (η * v) ^ 2 / n) := by ring
  have hA := close_likely hv.le hF h (le_refl p) hn (show 0 < δ * v by positivity)
  have hB : ∀ b : Fin p, P {ω | ¬ Close p v (x · ω) (e · ω) (2 * p - 1 - b) (n - p) (η * v)} ≤
      ENNReal.ofReal (2 * K / (η * v) ^ 2 / n) := by
    intro b
    have hb := b.2
    have hm : 0 < n - p := by omega
    have hm' : (0 : ℝ) < (n - p : ℕ) := by exact_mod_cast hm
    refine (close_likely hv.le hF h (show p ≤ 2 * p - 1 - b by omega) hm (show 0 < η * v by positivity)).trans ?_
    refine ENNReal.ofReal_le_ofReal ?_
    change K / (η * v) ^ 2 / (n - p : ℕ) ≤ _
    rw [div_le_div_iff₀ hm' hn']
    have h1 : (n : ℝ) ≤ 2 * (n - p : ℕ) := by
      have : n ≤ 2 * (n - p) := by omega
      exact_mod_cast this
    have h2 : 0 ≤ K / (η * v) ^ 2 := by positivity
    calc K / (η * v) ^ 2 * n ≤ K / (η * v) ^ 2 * (2 * (n - p : ℕ)) := mul_le_mul_of_nonneg_left h1 h2
      _ = 2 * K / (η * v) ^ 2 * (n - p : ℕ) := by ring
  rw [e1, ENNReal.ofReal_add (by positivity) (by positivity)]
  refine add_le_add (hA.trans (ENNReal.ofReal_le_ofReal ?_)) ?_
  · change K / (δ * v) ^ 2 / n ≤ _
    have : 0 ≤ 2 * (p : ℝ) / n := by positivity
    linarith
  · refine (measure_iUnion_fintype_le _ _).trans ((Finset.sum_le_sum fun b _ => hB b).trans ?_)
    rw [Finset.sum_const, nsmul_eq_mul, Finset.card_univ, Fintype.card_fin, ← ENNReal.ofReal_natCast, ← ENNReal.ofReal_mul (by positivity)]

end Verif.Recover
