import Verif.Notears.PropsIdentify
import Verif.Dynotears.Optimal

/-!
# Linear algebra for C131
-/

namespace Verif.Dynotears

open Verif.Notears Matrix Finset

/-- The sum of the squares of the entries. -/
noncomputable def sumSq {m n : ℕ} (M : Matrix (Fin m) (Fin n) ℝ) : ℝ := ∑ i, ∑ j, M i j ^ 2

theorem sumSq_nonneg {m n : ℕ} (M : Matrix (Fin m) (Fin n) ℝ) : 0 ≤ sumSq M :=
  Finset.sum_nonneg fun _ _ => Finset.sum_nonneg fun _ _ => sq_nonneg _

theorem entry_sq_le {m n : ℕ} (M : Matrix (Fin m) (Fin n) ℝ) (i : Fin m) (j : Fin n) : M i j ^ 2 ≤ sumSq M :=
  (Finset.single_le_sum (f := fun j => M i j ^ 2) (fun j _ => sq_nonneg _) (Finset.mem_univ j)).trans
    (Finset.single_le_sum (f := fun i => ∑ j, M i j ^ 2) (fun i _ => Finset.sum_nonneg fun j _ => sq_nonneg _) (Finset.mem_univ i))

section
variable {n d L : ℕ} (E : Matrix (Fin n) (Fin d) ℝ) (Y : Matrix (Fin n) (Fin L) ℝ) (T : Matrix (Fin d) (Fin d) ℝ) (D : Matrix (Fin L) (Fin d) ℝ)

theorem sumSq_split : sumSq (E * T + Y * D) = ∑ j, ∑ a, ∑ b, T a j * T b j * ∑ r, E r a * E r b +
    2 * ∑ j, ∑ a, ∑ l, T a j * D l j * ∑ r, E r a * Y r l + sumSq (Y * D) := by
  have h1 : ∑ j, ∑ a, ∑ b, T a j * T b j * ∑ r, E r a * E r b = ∑ r, ∑ j, ((E * T) r j) ^ 2 := by
    rw [Finset.sum_comm (s := (Finset.univ : Finset (Fin n)))]
    refine Finset.sum_congr rfl fun j _ => ?_
    simp only [Finset.mul_sum]
    simp_rw [Finset.sum_comm (t := (Finset.univ : Finset (Fin n)))]
    refine Finset.sum_congr rfl fun r _ => ?_
    rw [Matrix.mul_apply, sq, Finset.sum_mul_sum]
    exact Finset.sum_congr rfl fun a _ => Finset.sum_congr rfl fun b _ => by ring
  have h2 : ∑ j, ∑ a, ∑ l, T a j * D l j * ∑ r, E r a * Y r l = ∑ r, ∑ j, (E * T) r j * (Y * D) r j := by
    rw [Finset.sum_comm (s := (Finset.univ : Finset (Fin n)))]
    refine Finset.sum_congr rfl fun j _ => ?_
    simp only [Finset.mul_sum]
    simp_rw [Finset.sum_comm (t := (Finset.univ : Finset (Fin n)))]
    refine Finset.sum_congr rfl fun r _ => ?_
    rw [Matrix.mul_apply, Matrix.mul_apply, Finset.sum_mul_sum]
    exact Finset.sum_congr rfl fun a _ => Finset.sum_congr rfl fun b _ => by ring
  rw [h1, h2]
  unfold sumSq
  rw [Finset.mul_sum, ← Finset.sum_add_distrib, ← Finset.sum_add_distrib]
  refine Finset.sum_congr rfl fun r _ => ?_
  rw [Finset.mul_sum, ← Finset.sum_add_distrib, ← Finset.sum_add_distrib]
  refine Finset.sum_congr rfl fun j _ => ?_
  rw [Matrix.add_apply]
  ring

variable {E Y}

theorem mean_ge {v κ δ : ℝ} (hδ : 0 ≤ δ) (hG : ∀ a b, |(∑ r, E r a * E r b) / n - if a = b then v else 0| ≤ δ)
    (hH : ∀ a l, |(∑ r, E r a * Y r l) / n| ≤ δ) (hK : ∀ c : Fin L → ℝ, κ * ∑ l, c l ^ 2 ≤ (∑ r, (∑ l, Y r l * c l) ^ 2) / n) :
    (v - δ * (d + L)) * sumSq T + (κ - δ * d) * sumSq D ≤ sumSq (E * T + Y * D) / n := by
  have h1 := form_ge T (Matrix.of fun a b => (∑ r, E r a * E r b) / n) hG
  have h2 : -(δ * (L * sumSq T + d * sumSq D)) ≤ 2 * ∑ j, ∑ a, ∑ l, T a j * D l j * ((∑ r, E r a * Y r l) / n) := by
    have e : L * sumSq T + d * sumSq D = ∑ j : Fin d, ∑ a : Fin d, ∑ l : Fin L, (T a j ^ 2 + D l j ^ 2) := by
      unfold sumSq
      simp only [Finset.sum_add_distrib, Finset.sum_const, Finset.card_univ, Fintype.card_fin, nsmul_eq_mul]
      rw [Finset.sum_comm (f := fun i j => T i j ^ 2), Finset.sum_comm (f := fun i j => D i j ^ 2)]
      simp only [Finset.mul_sum]
    rw [e, Finset.mul_sum, Finset.mul_sum, ← Finset.sum_neg_distrib]
    refine Finset.sum_le_sum fun j _ => ?_
    rw [Finset.mul_sum, Finset.mul_sum, ← Finset.sum_neg_distrib]
    refine Finset.sum_le_sum fun a _ => ?_
    rw [Finset.mul_sum, Finset.mul_sum, ← Finset.sum_neg_distrib]
    refine Finset.sum_le_sum fun l _ => ?_
    have h3 : |T a j * D l j * ((∑ r, E r a * Y r l) / n)| ≤ |T a j| * |D l j| * δ := by
      rw [abs_mul, abs_mul]
      exact mul_le_mul_of_nonneg_left (hH a l) (by positivity)
    have h4 := neg_abs_le (T a j * D l j * ((∑ r, E r a * Y r l) / n))
    have h5 := sq_nonneg (|T a j| - |D l j|)
    have h6 := sq_abs (T a j)
    have h7 := sq_abs (D l j)
    nlinarith
  have h3 : κ * sumSq D ≤ sumSq (Y * D) / n := by
    unfold sumSq
    rw [Finset.sum_comm (f := fun i j => D i j ^ 2), Finset.sum_comm (f := fun i j => (Y * D) i j ^ 2), Finset.mul_sum, Finset.sum_div]
    refine Finset.sum_le_sum fun j _ => ?_
    have := hK fun l => D l j
    simpa only [Matrix.mul_apply] using this
  have h4 : sumSq (E * T + Y * D) / n = ∑ j, ∑ a, ∑ b, T a j * T b j * ((∑ r, E r a * E r b) / n) +
      2 * ∑ j, ∑ a, ∑ l, T a j * D l j * ((∑ r, E r a * Y r l) / n) + sumSq (Y * D) / n := by
    rw [sumSq_split, add_div, add_div, mul_div_assoc]
    simp only [Finset.sum_div, mul_div_assoc]
  rw [h4]
  simp only [Matrix.of_apply] at h1
  change (v - δ * d) * sumSq T ≤ _ at h1
  linarith

end

/-- Weights that fit almost as well as the ones behind the data and whose acyclicity score is small are close to them. -/
theorem close_dyn {d L : ℕ} {U : Matrix (Fin d) (Fin d) ℝ} (hU : NoCycle U) (B : Matrix (Fin L) (Fin d) ℝ) {v κ ε : ℝ} (hv : 0 < v)
    (hκ : 0 < κ) (hε : 0 < ε) : ∃ δ > 0, ∀ (n : ℕ) (E : Matrix (Fin n) (Fin d) ℝ) (Y : Matrix (Fin n) (Fin L) ℝ)
      (W T : Matrix (Fin d) (Fin d) ℝ) (A : Matrix (Fin L) (Fin d) ℝ), 1 - W = (1 - U) * T →
      (∀ a b, |(∑ r, E r a * E r b) / n - if a = b then v else 0| ≤ δ) → (∀ a l, |(∑ r, E r a * Y r l) / n| ≤ δ) →
      (∀ c : Fin L → ℝ, κ * ∑ l, c l ^ 2 ≤ (∑ r, (∑ l, Y r l * c l) ^ 2) / n) →
      sumSq (E * T + Y * (B * T - A)) / n ≤ v * d + δ → expScore W ≤ δ →
      (∀ i j, |W i j - U i j| < ε) ∧ ∀ l j, |A l j - B l j| < ε := by
  have hM : (1 - U)⁻¹ * (1 - U) = 1 := Matrix.nonsing_inv_mul _ (by rw [hU.det]; exact isUnit_one)
  generalize (1 - U)⁻¹ = M at hM
  set c1 := ∑ i, ∑ k, |M i k| with hc1
  set c2 := ∑ l, ∑ a, |B l a| with hc2
  have hc1' : 0 ≤ c1 := Finset.sum_nonneg fun _ _ => Finset.sum_nonneg fun _ _ => abs_nonneg _
  have hc2' : 0 ≤ c2 := Finset.sum_nonneg fun _ _ => Finset.sum_nonneg fun _ _ => abs_nonneg _
  set ρ := min (ε / 2) (κ * ε ^ 2 / 32) with hρ
  have hρ0 : 0 < ρ := lt_min (by positivity) (by positivity)
  have hρ1 : ρ ≤ ε / 2 := min_le_left _ _
  have hρ2 : ρ ≤ κ * ε ^ 2 / 32 := min_le_right _ _
  have hd : (0 : ℝ) ≤ d := Nat.cast_nonneg d
  have hL : (0 : ℝ) ≤ L := Nat.cast_nonneg L
  have hk1 : 0 < 1 + c1 * c2 + 2 * v * d * c1 := by positivity
  obtain ⟨ε₁, hε₁, hε₁'⟩ : ∃ e > 0, e * (1 + c1 * c2 + 2 * v * d * c1) = ρ :=
    ⟨ρ / (1 + c1 * c2 + 2 * v * d * c1), by positivity, div_mul_cancel₀ _ hk1.ne'⟩
  obtain ⟨η, hη, hclose⟩ := close_of_score hU hε₁
  set m := min (κ / 2) (min (v * η) (min ρ (v / 2))) with hm
  have hm0 : 0 < m := lt_min (by positivity) (lt_min (by positivity) (lt_min hρ0 (by positivity)))
  have hm1 : m ≤ κ / 2 := min_le_left _ _
  have hm2 : m ≤ v * η := (min_le_right _ _).trans (min_le_left _ _)
  have hm3 : m ≤ ρ := (min_le_right _ _).trans ((min_le_right _ _).trans (min_le_left _ _))
  have hm4 : m ≤ v / 2 := (min_le_right _ _).trans ((min_le_right _ _).trans (min_le_right _ _))
  have hk2 : 0 < 1 + (d + L) * (d + η + 1) + d := by positivity
  obtain ⟨δ, hδ, hδη, hδm⟩ : ∃ δ > 0, δ ≤ η ∧ δ * (1 + (d + L) * (d + η + 1) + d) ≤ m := by
    refine ⟨min η (m / (1 + (d + L) * (d + η + 1) + d)), lt_min hη (by positivity), min_le_left _ _, ?_⟩
    rw [← le_div_iff₀ hk2]
    exact min_le_right _ _
  refine ⟨δ, hδ, fun n E Y W T A hT hG hH hK hsq hsc => ?_⟩
  have p1 : 0 ≤ δ * ((d + L) * (d + η)) := by positivity
  have p2 : 0 ≤ δ * (d + L) := by positivity
  have p3 : 0 ≤ δ * d := by positivity
  have p4 : 0 ≤ δ * ((d + L) * d) := by positivity
  have p5 : 0 ≤ δ * ((d + L) * η) := by positivity
  have e2 : δ * (1 + (d + L) * (d + η + 1) + d) = δ + δ * ((d + L) * d) + δ * ((d + L) * η) + δ * (d + L) + δ * d := by ring
  have e3 : δ * ((d + L) * (d + η)) = δ * ((d + L) * d) + δ * ((d + L) * η) := by ring
  rw [e2] at hδm
  have hmean := mean_ge T (B * T - A) hδ.le hG hH hK
  have hδκ : δ * d ≤ κ / 2 := by linarith
  have hδv : δ * (d + L) ≤ v / 2 := by linarith
  have hD0 := sumSq_nonneg (B * T - A)
  have hmain : (v - δ * (d + L)) * sumSq T + κ / 2 * sumSq (B * T - A) ≤ v * d + δ := by
    have : κ / 2 * sumSq (B * T - A) ≤ (κ - δ * d) * sumSq (B * T - A) := mul_le_mul_of_nonneg_right (by linarith) hD0
    linarith
  have hT1 : sumSq T ≤ d + η := by
    have h1 : (v - δ * (d + L)) * sumSq T ≤ (v - δ * (d + L)) * (d + η) := by
      have h2 : 0 ≤ κ / 2 * sumSq (B * T - A) := mul_nonneg (by linarith) hD0
      have h3 : (v - δ * (d + L)) * (d + η) = v * d + v * η - δ * ((d + L) * (d + η)) := by ring
      linarith
    exact le_of_mul_le_mul_left h1 (by linarith)
  have hW := hclose W T hT (by rw [Fintype.card_fin]; exact hT1) (hsc.trans hδη)
  have hTM : T - 1 = M * (U - W) := by
    have h1 : M * (1 - W) = T := by rw [hT, ← Matrix.mul_assoc, hM, Matrix.one_mul]
    rw [show U - W = (1 - W) - (1 - U) by abel, Matrix.mul_sub, h1, hM]
  have hτ : ∀ i j, |(T - 1) i j| ≤ c1 * ε₁ := by
    intro i j
    rw [hTM, Matrix.mul_apply]
    refine (Finset.abs_sum_le_sum_abs _ _).trans ?_
    calc ∑ k, |M i k * (U - W) k j| ≤ ∑ k, |M i k| * ε₁ := Finset.sum_le_sum fun k _ => by
          rw [abs_mul, Matrix.sub_apply, abs_sub_comm]
          exact mul_le_mul_of_nonneg_left (hW k j).le (abs_nonneg _)
      _ = (∑ k, |M i k|) * ε₁ := (Finset.sum_mul _ _ _).symm
      _ ≤ c1 * ε₁ := mul_le_mul_of_nonneg_right
          (Finset.single_le_sum (f := fun i => ∑ k, |M i k|) (fun i _ => Finset.sum_nonneg fun _ _ => abs_nonneg _) (Finset.mem_univ i)) hε₁.le
  have q1 : 0 ≤ c1 * c2 * ε₁ := by positivity
  have q2 : 0 ≤ 2 * v * d * c1 * ε₁ := by positivity
  have e1 : ε₁ * (1 + c1 * c2 + 2 * v * d * c1) = ε₁ + c1 * c2 * ε₁ + 2 * v * d * c1 * ε₁ := by ring
  rw [e1] at hε₁'
  have hT2 : d * (1 - 2 * (c1 * ε₁)) ≤ sumSq T := by
    have : ∀ i ∈ (Finset.univ : Finset (Fin d)), 1 - 2 * (c1 * ε₁) ≤ ∑ j, T i j ^ 2 := by
      intro i _
      refine le_trans ?_ (Finset.single_le_sum (f := fun j => T i j ^ 2) (fun j _ => sq_nonneg _) (Finset.mem_univ i))
      have h1 := (abs_le.1 (hτ i i)).1
      rw [Matrix.sub_apply, Matrix.one_apply_eq] at h1
      change _ ≤ T i i ^ 2
      nlinarith [sq_nonneg (T i i - 1)]
    have := Finset.card_nsmul_le_sum _ _ _ this
    rwa [Finset.card_univ, Fintype.card_fin, nsmul_eq_mul] at this
  have hD : κ / 2 * sumSq (B * T - A) ≤ 2 * ρ := by
    have h1 := mul_le_mul_of_nonneg_left hT2 (show 0 ≤ v - δ * (d + L) by linarith)
    have h2 : 0 ≤ δ * (d + L) * (d * (2 * (c1 * ε₁))) := by positivity
    have h3 : (v - δ * (d + L)) * (d * (1 - 2 * (c1 * ε₁))) =
        v * d - 2 * v * d * c1 * ε₁ - δ * ((d + L) * d) + δ * (d + L) * (d * (2 * (c1 * ε₁))) := by ring
    linarith
  have hDle : sumSq (B * T - A) ≤ ε ^ 2 / 8 := by
    have : κ / 2 * sumSq (B * T - A) ≤ κ / 2 * (ε ^ 2 / 8) := by
      have h1 : κ / 2 * (ε ^ 2 / 8) = 2 * (κ * ε ^ 2 / 32) := by ring
      linarith
    exact le_of_mul_le_mul_left this (by positivity)
  refine ⟨fun i j => (hW i j).trans_le (by linarith), fun l j => ?_⟩
  have h1 : |(B * T - A) l j| < ε / 2 := by
    have := (entry_sq_le (B * T - A) l j).trans hDle
    refine abs_lt_of_sq_lt_sq ?_ (by positivity)
    have h2 : (ε / 2) ^ 2 = ε ^ 2 / 4 := by ring
    have h3 := pow_pos hε 2
    linarith
  have h2 : |(B * (T - 1) : Matrix (Fin L) (Fin d) ℝ) l j| ≤ ε / 2 := by
    rw [Matrix.mul_apply]
    refine (Finset.abs_sum_le_sum_abs _ _).trans ?_
    calc ∑ a, |B l a * (T - 1) a j| ≤ ∑ a, |B l a| * (c1 * ε₁) := Finset.sum_le_sum fun a _ => by
          rw [abs_mul]
          exact mul_le_mul_of_nonneg_left (hτ a j) (abs_nonneg _)
      _ = (∑ a, |B l a|) * (c1 * ε₁) := (Finset.sum_mul _ _ _).symm
      _ ≤ c2 * (c1 * ε₁) := mul_le_mul_of_nonneg_right
          (Finset.single_le_sum (f := fun l => ∑ a, |B l a|) (fun i _ => Finset.sum_nonneg fun _ _ => abs_nonneg _) (Finset.mem_univ l)) (by positivity)
      _ = c1 * c2 * ε₁ := by ring
      _ ≤ ε / 2 := by linarith
  have h3 : A l j - B l j = (B * (T - 1) : Matrix (Fin L) (Fin d) ℝ) l j - (B * T - A) l j := by
    rw [Matrix.mul_sub, Matrix.mul_one, Matrix.sub_apply, Matrix.sub_apply]
    ring
  rw [h3]
  have := abs_sub ((B * (T - 1) : Matrix (Fin L) (Fin d) ℝ) l j) ((B * T - A) l j)
  linarith

/-- The same for errors of any size, with all tolerances relative to this size. -/
theorem close_dyn_scaled {d L : ℕ} {U : Matrix (Fin d) (Fin d) ℝ} (hU : NoCycle U) (B : Matrix (Fin L) (Fin d) ℝ) {κ ε : ℝ} (hκ : 0 < κ) (hε : 0 < ε) :
    ∃ δ > 0, ∀ (v : ℝ), 0 < v → ∀ (n : ℕ) (E : Matrix (Fin n) (Fin d) ℝ) (Y : Matrix (Fin n) (Fin L) ℝ) (W T : Matrix (Fin d) (Fin d) ℝ)
      (A : Matrix (Fin L) (Fin d) ℝ), 1 - W = (1 - U) * T →
      (∀ a b, |(∑ r, E r a * E r b) / n - if a = b then v else 0| ≤ δ * v) → (∀ a l, |(∑ r, E r a * Y r l) / n| ≤ δ * v) →
      (∀ c : Fin L → ℝ, κ * v * ∑ l, c l ^ 2 ≤ (∑ r, (∑ l, Y r l * c l) ^ 2) / n) →
      sumSq (E * T + Y * (B * T - A)) / n ≤ v * d + δ * v → expScore W ≤ δ →
      (∀ i j, |W i j - U i j| < ε) ∧ ∀ l j, |A l j - B l j| < ε := by
  obtain ⟨δ, hδ, h⟩ := close_dyn hU B one_pos hκ hε
  refine ⟨δ, hδ, fun v hv n E Y W T A hT hE hY hL hS hW => ?_⟩
  have hs : (√v)⁻¹ ^ 2 = v⁻¹ := by rw [inv_pow, Real.sq_sqrt hv.le]
  have hss : (√v)⁻¹ * (√v)⁻¹ = v⁻¹ := by rw [← sq, hs]
  refine h n ((√v)⁻¹ • E) ((√v)⁻¹ • Y) W T A hT (fun a b => ?_) (fun a l => ?_) (fun c => ?_) ?_ hW
  · have h1 : (∑ r, ((√v)⁻¹ • E) r a * ((√v)⁻¹ • E) r b) / n - (if a = b then 1 else 0) =
        v⁻¹ * ((∑ r, E r a * E r b) / n - if a = b then v else 0) := by
      have h2 : (∑ r, ((√v)⁻¹ • E) r a * ((√v)⁻¹ • E) r b) = v⁻¹ * ∑ r, E r a * E r b := by
        rw [Finset.mul_sum]
        refine Finset.sum_congr rfl fun r _ => ?_
        simp only [Matrix.smul_apply, smul_eq_mul]
        rw [← hss]; ring
      rw [h2]
      by_cases hab : a = b
      · rw [if_pos hab, if_pos hab, mul_sub, inv_mul_cancel₀ hv.ne', mul_div_assoc]
      · rw [if_neg hab, if_neg hab, mul_sub, mul_zero, mul_div_assoc]
    rw [h1, abs_mul, abs_of_pos (inv_pos.2 hv), inv_mul_le_iff₀ hv, mul_comm v]
    exact hE a b
  · have h2 : (∑ r, ((√v)⁻¹ • E) r a * ((√v)⁻¹ • Y) r l) = v⁻¹ * ∑ r, E r a * Y r l := by
      rw [Finset.mul_sum]
      refine Finset.sum_congr rfl fun r _ => ?_
      simp only [Matrix.smul_apply, smul_eq_mul]
      rw [← hss]; ring
    rw [h2, mul_div_assoc, abs_mul, abs_of_pos (inv_pos.2 hv), inv_mul_le_iff₀ hv, mul_comm v]
    exact hY a l
  · have h2 : (∑ r, (∑ l, ((√v)⁻¹ • Y) r l * c l) ^ 2) = v⁻¹ * ∑ r, (∑ l, Y r l * c l) ^ 2 := by
      rw [Finset.mul_sum]
      refine Finset.sum_congr rfl fun r _ => ?_
      simp only [Matrix.smul_apply, smul_eq_mul, mul_assoc]
      rw [← Finset.mul_sum, mul_pow, hs]
    rw [h2, mul_div_assoc, ← mul_le_mul_iff_right₀ hv, ← mul_assoc v v⁻¹, mul_inv_cancel₀ hv.ne', one_mul]
    refine le_trans (le_of_eq ?_) (hL c)
    ring
  · have h2 : (√v)⁻¹ • E * T + (√v)⁻¹ • Y * (B * T - A) = (√v)⁻¹ • (E * T + Y * (B * T - A)) := by
      rw [Matrix.smul_mul, Matrix.smul_mul, smul_add]
    have h3 : sumSq ((√v)⁻¹ • (E * T + Y * (B * T - A))) = v⁻¹ * sumSq (E * T + Y * (B * T - A)) := by
      unfold sumSq
      simp only [Finset.mul_sum]
      refine Finset.sum_congr rfl fun r _ => Finset.sum_congr rfl fun j _ => ?_
      rw [Matrix.smul_apply, smul_eq_mul, mul_pow, hs]
    rw [h2, h3, mul_div_assoc, inv_mul_le_iff₀ hv]
    linarith

end Verif.Dynotears
