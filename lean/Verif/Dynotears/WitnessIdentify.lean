import Verif.Notears.WitnessOptimal
import Verif.Dynotears.PropsIdentify

/-!
# Concrete cases for C131
-/

namespace Verif.Dynotears.Witness

open Verif.Notears Verif.Notears.Witness Verif.Str Matrix Finset

/-- Earlier values: `c` times the identity, followed by `d` rows of zeros. -/
noncomputable def cleanLags (d p : ℕ) (c : ℝ) : Data ℝ where
  rows := p * d + d
  cols := p * d
  entry r m := some (if r = m then c else 0)

/-- Errors: zero in the first `p * d` rows, followed by `c` times the identity. -/
noncomputable def cleanErrors (d p : ℕ) (c : ℝ) : Matrix (Fin (p * d + d)) (Fin d) ℝ := fun r j => if (r : ℕ) = p * d + j then c else 0

/-- The earlier values as a matrix. -/
noncomputable def cleanLagMat (d p : ℕ) (c : ℝ) : Matrix (Fin (p * d + d)) (Fin (p * d)) ℝ := fun r m => if (r : ℕ) = m then c else 0

/-- The values that follow from these earlier values and errors. -/
noncomputable def cleanNow (d p : ℕ) (u : ℕ → ℕ → ℕ → ℝ) (c : ℝ) : Data ℝ where
  rows := p * d + d
  cols := d
  entry i j := some (if h : i < p * d + d ∧ j < d then
    ((cleanErrors d p c + cleanLagMat d p c * lagMat d (p * d) u) * (1 - nowMat d u)⁻¹ : Matrix (Fin (p * d + d)) (Fin d) ℝ) ⟨i, h.1⟩ ⟨j, h.2⟩ else 0)

theorem clean_errors {d p : ℕ} {u : ℕ → ℕ → ℕ → ℝ} (hu : AcyclicWeights d (u 0)) (c : ℝ) :
    errors (cleanNow d p u c) (cleanLags d p c) p u = cleanErrors d p c := by
  have hX : (cleanNow d p u c).matrix = ((cleanErrors d p c + cleanLagMat d p c * lagMat d (p * d) u) *
      (1 - nowMat d u)⁻¹ : Matrix (Fin (p * d + d)) (Fin d) ℝ) := by
    funext a b
    simp only [Data.matrix, cleanNow, Option.getD_some]
    rw [dif_pos ⟨a.2, b.2⟩]
    rfl
  have hdet : IsUnit (1 - nowMat d u).det := by
    rw [NoCycle.det (W := nowMat d u) hu]; exact isUnit_one
  have h := errors_eq (X := cleanNow d p u c) (Xlags := cleanLags d p c) (p := p) rfl u
  rw [hX] at h
  refine h.trans ?_
  have key : ((cleanErrors d p c + cleanLagMat d p c * lagMat d (p * d) u) * (1 - nowMat d u)⁻¹ * (1 - nowMat d u) -
      cleanLagMat d p c * lagMat d (p * d) u : Matrix (Fin (p * d + d)) (Fin d) ℝ) = cleanErrors d p c := by
    rw [Matrix.mul_assoc, Matrix.nonsing_inv_mul _ hdet, Matrix.mul_one, add_sub_cancel_right]
  exact key

theorem clean_residual {d p : ℕ} {u : ℕ → ℕ → ℕ → ℝ} (hu : AcyclicWeights d (u 0)) (c : ℝ) {r j : ℕ} (hr : r < p * d + d) (hj : j < d) :
    residualDyn (cleanNow d p u c) (cleanLags d p c) p u r j = if r = p * d + j then c else 0 :=
  congrFun (congrFun (clean_errors hu c) ⟨r, hr⟩) ⟨j, hj⟩

theorem clean_equal {d p : ℕ} {u : ℕ → ℕ → ℕ → ℝ} (hu : AcyclicWeights d (u 0)) (c : ℝ) :
    EqualErrorsDyn (cleanNow d p u c) (cleanLags d p c) p u (c ^ 2 / ((p * d + d : ℕ) : ℝ)) 0 where
  equal j hj k hk := by
    change j < d at hj
    change k < d at hk
    have : (∑ r ∈ range (p * d + d), residualDyn (cleanNow d p u c) (cleanLags d p c) p u r j *
        residualDyn (cleanNow d p u c) (cleanLags d p c) p u r k) = if j = k then c ^ 2 else 0 := by
      rw [Finset.sum_congr rfl fun r hr => congrArg₂ (· * ·) (clean_residual hu c (mem_range.1 hr) hj) (clean_residual hu c (mem_range.1 hr) hk),
        Finset.sum_eq_single_of_mem (p * d + j) (by simp [hj])]
      · by_cases hjk : j = k
        · subst hjk; simp [sq]
        · simp [hjk]
      · intro r _ hne
        simp [hne]
    change |(∑ r ∈ range (p * d + d), _) / ((p * d + d : ℕ) : ℝ) - _| ≤ 0
    rw [this]
    by_cases hjk : j = k
    · simp [hjk]
    · simp [hjk]
  lags j hj m hm := by
    change j < d at hj
    change m < p * d at hm
    have : (∑ r ∈ range (p * d + d), residualDyn (cleanNow d p u c) (cleanLags d p c) p u r j * (cleanLags d p c).val r m) = 0 := by
      refine Finset.sum_eq_zero fun r hr => ?_
      rw [clean_residual hu c (mem_range.1 hr) hj]
      change _ * (if r = m then c else 0) = 0
      by_cases h : r = m
      · rw [if_neg (by omega), zero_mul]
      · rw [if_neg h, mul_zero]
    change |(∑ r ∈ range (p * d + d), _) / _| ≤ 0
    rw [this]
    simp

theorem clean_vary {d p : ℕ} (u : ℕ → ℕ → ℕ → ℝ) (c : ℝ) : LagsVary (cleanNow d p u c) (cleanLags d p c) (1 * (c ^ 2 / ((p * d + d : ℕ) : ℝ))) := by
  intro b
  change _ * ∑ m ∈ range (p * d), _ ≤ (∑ r ∈ range (p * d + d), (∑ m ∈ range (p * d), (if r = m then c else 0) * b m) ^ 2) / ((p * d + d : ℕ) : ℝ)
  have h1 : ∀ r, (∑ m ∈ range (p * d), (if r = m then c else 0) * b m) = if r < p * d then c * b r else 0 := by
    intro r
    by_cases hr : r < p * d
    · rw [if_pos hr, Finset.sum_eq_single_of_mem r (mem_range.2 hr), if_pos rfl]
      intro m _ hne
      rw [if_neg hne.symm, zero_mul]
    · rw [if_neg hr]
      refine Finset.sum_eq_zero fun m hm => ?_
      rw [if_neg (by rw [mem_range] at hm; omega), zero_mul]
  simp only [h1]
  have h2 : (∑ r ∈ range (p * d + d), (if r < p * d then c * b r else 0) ^ 2) = c ^ 2 * ∑ r ∈ range (p * d), b r ^ 2 := by
    rw [Finset.sum_range_add, Finset.mul_sum, Finset.sum_eq_zero (s := range d), add_zero]
    · refine Finset.sum_congr rfl fun r hr => ?_
      rw [if_pos (mem_range.1 hr), mul_pow]
    · intro r _
      rw [if_neg (by omega)]; simp
  rw [h2, one_mul, div_mul_eq_mul_div]

/-- The hypotheses of `identified_dyn`, `dynotears_recovers` and `dynotears_no_warning` can be met for all weights that are acyclic within a
time step: there are data, parameters with positive penalties and an optimiser for which `from_numpy_dynamic` returns exactly the given graph. -/
theorem recoveryDyn_possible {d p : ℕ} (hd : d ≠ 0) (hp : p ≠ 0) {u : ℕ → ℕ → ℕ → ℝ} (hu : AcyclicWeights d (u 0)) {ε thr : ℝ} (hε : 0 < ε)
    (hthr : ε ≤ thr) (hbig : ∀ k ≤ p, ∀ i < d, ∀ j < d, u k i j ≠ 0 → thr + ε ≤ |u k i j|) :
    ∃ (X Xlags : Data ℝ) (v lam : ℝ) (minimize : Minimizer ℝ) (a : Params ℝ ℕ) (g : Graph Str ℝ), X.cols = d ∧ Xlags.cols = p * d ∧ 0 < v ∧
      EqualErrorsDyn X Xlags p u v 0 ∧ LagsVary X Xlags v ∧ 0 < lam ∧ RespectsBounds minimize ∧ a.wThreshold = thr ∧
      dynotears minimize 21 lam lam X Xlags a = .ok (g, false) ∧
      (∀ e ∈ g.edges, ∃ k ≤ p, ∃ i < d, ∃ j < d, e.src = lagName (natStr i) k ∧ e.dst = lagName (natStr j) 0 ∧ u k i j ≠ 0 ∧
        |e.weight - u k i j| < ε) ∧
      ∀ k ≤ p, ∀ i < d, ∀ j < d, u k i j ≠ 0 → ∃ e ∈ g.edges, e.src = lagName (natStr i) k ∧ e.dst = lagName (natStr j) 0 := by
  obtain ⟨δ, hδ, hrec⟩ := dynotears_recovers (p := p) hd hu one_pos hε
  let a : Params ℝ ℕ := ⟨2, δ, thr, ⟨none, none, none⟩⟩
  let X := cleanNow d p u δ
  let Xlags := cleanLags d p δ
  have hpos : 0 < p * d + d := by omega
  let v : ℝ := δ ^ 2 / ((p * d + d : ℕ) : ℝ)
  have hn : (0 : ℝ) < ((p * d + d : ℕ) : ℝ) := by exact_mod_cast hpos
  have hv : 0 < v := by positivity
  let S : ℝ := absSum d (u 0) + ∑ k ∈ range p, absSum d (u (k + 1))
  have hS0 : 0 ≤ S := add_nonneg (absSum_nonneg _ _) (Finset.sum_nonneg fun _ _ => absSum_nonneg _ _)
  let lam : ℝ := v * min δ 1 / (1 + S)
  have hmin : 0 < min δ 1 := lt_min hδ one_pos
  have hlam : 0 < lam := by positivity
  have hpen : lam * absSum d (u 0) + lam * ∑ k ∈ range p, absSum d (u (k + 1)) ≤ v * min δ 1 := by
    rw [← mul_add]
    change v * min δ 1 / (1 + S) * S ≤ _
    rw [div_mul_eq_mul_div, div_le_iff₀ (by positivity)]
    have : 0 ≤ v * min δ 1 := by positivity
    nlinarith
  have hSh : Shapes X Xlags := ⟨by change p * d + d ≠ 0; omega, hd, Nat.mul_ne_zero hp hd, rfl, Dvd.intro_left p rfl⟩
  have hq : Xlags.cols / X.cols = p := Nat.mul_div_cancel _ (Nat.pos_of_ne_zero hd)
  have hper : ∀ k ≤ p, ∀ i < d, ∀ j < d, u k i j ≠ 0 → Permitted a.tabu k i j := by
    intro k _ i hi j _ hne
    refine ⟨?_, by simp [a], by simp [a], by simp [a]⟩
    rintro rfl rfl
    exact hne (NoCycle.diag hu ⟨i, hi⟩)
  have hnw : NotWorse (problem lam lam X Xlags) (better (splitVec d p u)) (bounds a.tabu d p) (splitVec d p u) := better_notWorse _ (splitVec_box hper)
  obtain ⟨s, hs, -⟩ := learnLoop_terminates (P := problem lam lam X Xlags) (minimize := better (splitVec d p u))
    (bnds := bounds a.tabu X.cols (Xlags.cols / X.cols)) (fun _ => WithTop.coe_ne_top) (2 * (Xlags.cols / X.cols + 1) * X.cols ^ 2) a.maxIter a.hTol (le_refl 21)
  have hok := fromNumpyDynamicW_ok.2 ⟨hSh, s, hs, rfl⟩
  have hE := clean_equal (p := p) hu δ
  have hL := clean_vary (d := d) (p := p) u δ
  have hsq : 2 * squaredErrorDyn X Xlags p u ≤ δ ^ 2 := by
    rw [squaredErrorDyn_sumSq]
    have h1 : sumSq (errors X Xlags p u) = d * δ ^ 2 := by
      rw [sumSq, Finset.sum_comm]
      have : ∀ j : Fin d, ∑ r, errors X Xlags p u r j ^ 2 = δ ^ 2 := by
        intro j
        change ∑ r : Fin (p * d + d), errors X Xlags p u r j ^ 2 = δ ^ 2
        rw [Finset.sum_eq_single_of_mem (⟨p * d + j, by omega⟩ : Fin (p * d + d)) (Finset.mem_univ _)]
        · change (errors (cleanNow d p u δ) (cleanLags d p δ) p u _ _) ^ 2 = _
          rw [clean_errors hu]
          simp [cleanErrors]
        · intro r _ hne
          change (errors (cleanNow d p u δ) (cleanLags d p δ) p u _ _) ^ 2 = _
          rw [clean_errors hu]
          unfold cleanErrors
          rw [if_neg fun h => hne (Fin.ext h)]
          simp
      change ∑ j : Fin d, ∑ r, errors X Xlags p u r j ^ 2 = _
      rw [Finset.sum_congr rfl fun j _ => this j, Finset.sum_const, Finset.card_univ, Fintype.card_fin, nsmul_eq_mul]
    rw [h1]
    change (d : ℝ) * δ ^ 2 / ((p * d + d : ℕ) : ℝ) ≤ _
    rw [div_le_iff₀ hn, mul_comm]
    refine mul_le_mul_of_nonneg_left ?_ (sq_nonneg _)
    exact_mod_cast Nat.le_add_left d (p * d)
  have hvd : v * min δ 1 ≤ δ ^ 2 := by
    have h3 : v * min δ 1 ≤ v * 1 := mul_le_mul_of_nonneg_left (min_le_right _ _) hv.le
    have h4 : v ≤ δ ^ 2 := div_le_self (sq_nonneg _) (by exact_mod_cast hpos)
    linarith
  have hle : 2 * errorDyn lam lam X Xlags p u ≤ 3 * δ ^ 2 := by
    have h1 : errorDyn lam lam X Xlags p u = squaredErrorDyn X Xlags p u + (lam * absSum d (u 0) + lam * ∑ k ∈ range p, absSum d (u (k + 1))) := rfl
    rw [h1]
    linarith
  have hw := dynotears_no_warning (u := u) (better_respects _) hok (by simp [a]) hlam.le hlam.le hu (by rw [hq]; exact hnw) hδ.le
    (by rw [hq]; exact hle.trans (by change 3 * δ ^ 2 ≤ 10 ^ 19 * δ ^ 2; nlinarith [sq_nonneg δ]))
    (by rw [hq]; exact hle.trans (by change 3 * δ ^ 2 ≤ (δ * 4 ^ (2 - 1)) ^ 2; norm_num; nlinarith [sq_nonneg δ]))
  rw [hw] at hok
  have := hrec X Xlags v (better (splitVec d p u)) 21 lam lam a _ rfl rfl hv
    ⟨fun j hj k hk => (hE.equal j hj k hk).trans (by positivity), fun j hj m hm => (hE.lags j hj m hm).trans (by positivity)⟩ hL
    (better_respects _) hok (by simp [a]) hlam.le hlam.le
    (hpen.trans (by rw [mul_comm]; exact mul_le_mul_of_nonneg_right (min_le_left _ _) hv.le)) hnw (le_refl _) hthr hbig
  rw [one_mul] at hL
  exact ⟨X, Xlags, v, lam, better (splitVec d p u), a, _, rfl, rfl, hv, hE, hL, hlam, better_respects _, rfl, hok, this⟩

/-- Two variables, one lag: `x0 = 0.5 * x0' + e0`, `x1 = 2 * x0 - x1' + e1`. -/
noncomputable def varWeights (k i j : ℕ) : ℝ :=
  if k = 0 ∧ i = 0 ∧ j = 1 then 2 else if k = 1 ∧ i = 0 ∧ j = 0 then 1 / 2 else if k = 1 ∧ i = 1 ∧ j = 1 then -1 else 0

theorem var_acyclic : AcyclicWeights 2 (varWeights 0) := by
  have key : ∀ i j : Fin 2, Relation.TransGen (fun a b : Fin 2 => varWeights 0 a b ≠ 0) i j → i < j := by
    intro i j h
    induction h with
    | single h => rename_i b; revert h; fin_cases i <;> fin_cases b <;> simp [varWeights]
    | tail _ h ih => refine ih.trans ?_; rename_i b c _; revert h; fin_cases b <;> fin_cases c <;> simp [varWeights]
  exact fun i h => lt_irrefl _ (key i i h)

example := recoveryDyn_possible (d := 2) (p := 1) (by norm_num) (by norm_num) var_acyclic (ε := 1 / 10) (thr := 3 / 10) (by norm_num) (by norm_num) (by
  intro k _ i _ j _ h
  unfold varWeights at h ⊢
  split_ifs at h ⊢
  · norm_num
  · norm_num
  · norm_num
  · exact absurd rfl h)

example := identified_dyn (X := cleanNow 2 1 varWeights 3) (Xlags := cleanLags 2 1 3) ⟨by simp [cleanNow], by simp [cleanNow], by simp [cleanLags], rfl, by simp [cleanNow, cleanLags]⟩
  (u := varWeights) (w := fun _ _ _ => 0) (v := 3 ^ 2 / 4) (κ := 3 ^ 2 / 4) var_acyclic (by norm_num) (by norm_num)
  (by have := clean_equal (p := 1) var_acyclic 3; norm_num at this ⊢; exact this) (by have := clean_vary (d := 2) (p := 1) varWeights 3; norm_num at this ⊢; exact this)
  (acyclic_zero 2)

end Verif.Dynotears.Witness
