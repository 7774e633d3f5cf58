import Verif.Consistent.Truth
import Verif.BBN.SampleLemmas
import Verif.Network.ToEngine
import Verif.Network.PredictQuery
import Mathlib.Algebra.BigOperators.Ring.Finset
import Mathlib.Tactic.Positivity
import Mathlib.Tactic.FieldSimp
import Mathlib.Tactic.Linarith
import Mathlib.Algebra.Order.Archimedean.Real.Basic

/-!
# Estimates from data in which every assignment has nearly its probability
-/

namespace Verif.Consistent

open Verif.BBN Function
open Verif.Network (FitArgs estimate)

section
set_option linter.unusedSectionVars false
variable {V S : Type} [LinearOrder V] [LinearOrder S]

theorem worlds_base {dom : V → List S} {vs : List V} {x y : V → S} (h : ∀ v, v ∉ vs → x v = y v) :
    worlds dom vs x = worlds dom vs y := by
  induction vs generalizing x y with
  | nil => rw [worlds, worlds, funext fun v => h v List.not_mem_nil]
  | cons v vs ih =>
    rw [worlds, worlds]
    refine List.flatMap_congr fun s _ => ih fun u hu => ?_
    by_cases e : u = v
    · subst e; simp
    · rw [update_of_ne e, update_of_ne e]
      exact h u (by simp [e, hu])

theorem massWith_world {dom : V → List S} {vs : List V} {x₀ σ : V → S} (h : σ ∈ worlds dom vs x₀) (J : (V → S) → ℝ)
    (A : (V → S) → Prop) [DecidablePred A] : massWith dom vs J σ A = massWith dom vs J x₀ A := by
  unfold massWith
  rw [worlds_base fun v hv => (worlds_valid h v).2 hv]

theorem massWith_near {dom : V → List S} {vs : List V} {x₀ : V → S} {J J' : (V → S) → ℝ} {δ : ℝ} (hδ : 0 ≤ δ)
    (h : ∀ x ∈ worlds dom vs x₀, |J x - J' x| ≤ δ) (A : (V → S) → Prop) [DecidablePred A] :
    |massWith dom vs J x₀ A - massWith dom vs J' x₀ A| ≤ (worlds dom vs x₀).length * δ := by
  unfold massWith
  generalize worlds dom vs x₀ = l at h ⊢
  induction l with
  | nil => simp
  | cons y l ih =>
    have h1 := ih fun x hx => h x (List.mem_cons_of_mem _ hx)
    have h2 := h y List.mem_cons_self
    rw [List.length_cons]
    push_cast
    by_cases hA : A y
    · rw [List.filter_cons_of_pos (by simpa using hA), List.map_cons, List.map_cons, List.sum_cons, List.sum_cons]
      rw [abs_le] at *
      constructor <;> nlinarith
    · rw [List.filter_cons_of_neg (by simpa using hA)]
      linarith

/-- The number of rows that agree with an assignment. -/
def cell {n : ℕ} (vs : List V) (R : Fin n → V → S) (σ : V → S) : ℕ := (Finset.univ.filter fun i => ∀ v ∈ vs, R i v = σ v).card

theorem sumOver_finset {ι : Type} (dom : V → List S) (vs : List V) (I : Finset ι) (f : ι → (V → S) → ℝ) (x : V → S) :
    sumOver dom vs (fun y => ∑ i ∈ I, f i y) x = ∑ i ∈ I, sumOver dom vs (f i) x := by
  classical
  induction I using Finset.induction with
  | empty =>
    simp only [Finset.sum_empty]
    rw [sumOver_worlds]
    simp
  | insert i I hi ih =>
    simp only [Finset.sum_insert hi]
    rw [sumOver_add, ih]

/-- The rows with a property are the rows of the assignments with the property. -/
theorem count_eq {dom : V → List S} {vs : List V} (hvs : vs.Nodup) (hd : ∀ v ∈ vs, (dom v).Nodup) {n : ℕ} {R : Fin n → V → S}
    (hR : ∀ i, ∀ v ∈ vs, R i v ∈ dom v) (x₀ : V → S) (A : (V → S) → Prop) [DecidablePred A]
    (hA : ∀ x y : V → S, (∀ v ∈ vs, x v = y v) → (A x ↔ A y)) :
    ((Finset.univ.filter fun i => A (R i)).card : ℝ) = massWith dom vs (fun σ => (cell vs R σ : ℝ)) x₀ A := by
  rw [massWith_eq_sumOver]
  have h1 : (fun x => if A x then (cell vs R x : ℝ) else 0) =
      fun x => ∑ i, if ∀ v ∈ vs, x v = R i v then (if A x then (1 : ℝ) else 0) else 0 := by
    funext x
    by_cases h : A x
    · simp only [if_pos h]
      rw [cell, Finset.sum_boole]
      congr 2
      refine Finset.filter_congr fun i _ => ?_
      exact ⟨fun h v hv => (h v hv).symm, fun h v hv => (h v hv).symm⟩
    · simp [h]
  rw [h1, sumOver_finset, ← Finset.sum_boole]
  refine Finset.sum_congr rfl fun i _ => ?_
  rw [sumOver_single (R i) vs hvs hd (hR i) (fun x => if A x then (1 : ℝ) else 0) x₀]
  have h2 := hA (R i) (fun v => if v ∈ vs then R i v else x₀ v) fun v hv => by rw [if_pos hv]
  by_cases h : A (R i)
  · rw [if_pos h, if_pos (h2.1 h)]
  · rw [if_neg h, if_neg fun h' => h (h2.2 h')]

theorem ratio_close {c d C D q b k δ : ℝ} (hC : C = q * D) (hD : 0 < D) (hq0 : 0 ≤ q) (hq1 : q ≤ 1) (hc : |c - C| ≤ δ) (hd : |d - D| ≤ δ)
    (hδ : δ ≤ D / 2) (hb : 0 ≤ b) (hk : 0 ≤ k) : |(c + b) / (d + k * b) - q| ≤ (2 * δ + b * (1 + k)) * 2 / D := by
  have hd1 : D / 2 ≤ d := by
    have := (abs_le.1 hd).1
    linarith
  have hkb : 0 ≤ k * b := mul_nonneg hk hb
  have hpos : 0 < d + k * b := by linarith
  have hδ0 : 0 ≤ δ := (abs_nonneg _).trans hc
  rw [div_sub' hpos.ne', abs_div, abs_of_pos hpos, div_le_div_iff₀ hpos hD]
  have h1 : |c + b - (d + k * b) * q| ≤ 2 * δ + b * (1 + k) := by
    have e : c + b - (d + k * b) * q = (c - C) - q * (d - D) + b * (1 - k * q) := by rw [hC]; ring
    have h2 : |q * (d - D)| ≤ δ := by
      rw [abs_mul, abs_of_nonneg hq0]
      calc q * |d - D| ≤ 1 * |d - D| := mul_le_mul_of_nonneg_right hq1 (abs_nonneg _)
        _ ≤ δ := by rw [one_mul]; exact hd
    have h3 : |b * (1 - k * q)| ≤ b * (1 + k) := by
      rw [abs_mul, abs_of_nonneg hb]
      refine mul_le_mul_of_nonneg_left ?_ hb
      rw [abs_le]
      constructor <;> nlinarith [mul_nonneg hk hq0]
    rw [e]
    rw [abs_le] at *
    constructor <;> linarith
  have h4 : 0 ≤ 2 * δ + b * (1 + k) := by positivity
  nlinarith [mul_le_mul_of_nonneg_right h1 hD.le]

/-- With observations every estimator reports `(N + α) / (total + k * α)` for some `α`. -/
theorem estimate_form {a : FitArgs ℝ} (hess : ∀ n, a.ess = some n → 0 < n) {ks : List S} {cfgs : ℕ} {N : S → ℕ}
    (hc : 0 < cfgs) (h : 0 < (ks.map N).sum) (hk : ks ≠ []) (s : S) : ∃ α : ℝ, 0 ≤ α ∧ α ≤ 1 + a.ess.getD 0 ∧
      estimate a ks cfgs N s = (N s + α) / (((ks.map N).sum : ℕ) + ks.length * α) := by
  have he : 0 ≤ a.ess.getD 0 := by
    cases e : a.ess with
    | none => simp
    | some n => exact (hess n e).le
  unfold estimate
  simp only
  by_cases h1 : a.method = "MaximumLikelihoodEstimator"
  · refine ⟨0, le_rfl, by linarith, ?_⟩
    rw [if_pos h1, if_neg h.ne']
    simp
  · rw [if_neg h1]
    by_cases h2 : a.prior = some "K2"
    · refine ⟨1, zero_le_one, by linarith, ?_⟩
      rw [if_pos h2]
      simp
    · rw [if_neg h2]
      refine ⟨_, ?_, ?_, rfl⟩
      · positivity
      · have h3 : (1 : ℝ) ≤ ks.length * cfgs := by
          have : 1 ≤ ks.length * cfgs := Nat.mul_pos (List.length_pos_iff.2 hk) hc
          exact_mod_cast this
        have h4 : a.ess.getD 0 / (ks.length * cfgs) ≤ a.ess.getD 0 := div_le_self he h3
        linarith

theorem exists_lower {α : Type} (l : List α) (f : α → ℝ) : ∃ D, 0 < D ∧ ∀ x ∈ l, 0 < f x → D ≤ f x := by
  induction l with
  | nil => exact ⟨1, one_pos, by simp⟩
  | cons y l ih =>
    obtain ⟨D, hD, h⟩ := ih
    by_cases hy : 0 < f y
    · refine ⟨min D (f y), lt_min hD hy, fun x hx hp => ?_⟩
      rcases List.mem_cons.1 hx with rfl | hx
      · exact min_le_right _ _
      · exact (min_le_left _ _).trans (h x hx hp)
    · refine ⟨D, hD, fun x hx hp => ?_⟩
      rcases List.mem_cons.1 hx with rfl | hx
      · exact absurd hp hy
      · exact h x hx hp

theorem exists_upper {α : Type} (l : List α) (f : α → ℝ) : ∃ M, 0 < M ∧ ∀ x ∈ l, f x ≤ M := by
  induction l with
  | nil => exact ⟨1, one_pos, by simp⟩
  | cons y l ih =>
    obtain ⟨M, hM, h⟩ := ih
    refine ⟨max M (f y), lt_max_of_lt_left hM, fun x hx => ?_⟩
    rcases List.mem_cons.1 hx with rfl | hx
    · exact le_max_right _ _
    · exact (h x hx).trans (le_max_left _ _)

variable {dom : V → List S} {vs : List V} {par : V → List V} {Q : V → S → List S → ℝ}

theorem IsModel.le_one (h : IsModel dom vs par Q) {v : V} (hv : v ∈ vs) {ps : List S} (hps : List.Forall₂ (fun s p => s ∈ dom p) ps (par v))
    {s : S} (hs : s ∈ dom v) : Q v s ps ≤ 1 := by
  rw [← h.sum v hv ps hps]
  refine List.single_le_sum ?_ _ (List.mem_map.2 ⟨s, hs, rfl⟩)
  intro y hy
  obtain ⟨t, ht, rfl⟩ := List.mem_map.1 hy
  exact h.nonneg v hv ps hps t ht

/-- The number of rows with a state of a variable and states of its parents. -/
def famCount {n : ℕ} (par : V → List V) (R : Fin n → V → S) (v : V) (ps : List S) (s : S) : ℕ :=
  (Finset.univ.filter fun i => R i v = s ∧ (par v).map (R i) = ps).card

theorem famCount_sum {n : ℕ} {R : Fin n → V → S} {v : V} (hd : (dom v).Nodup) (hR : ∀ i, R i v ∈ dom v) (ps : List S) :
    ((dom v).map (famCount par R v ps)).sum = (Finset.univ.filter fun i => (par v).map (R i) = ps).card := by
  rw [← List.sum_toFinset _ hd]
  rw [Finset.card_eq_sum_card_fiberwise (f := fun i => R i v) (t := (dom v).toFinset)]
  · refine Finset.sum_congr rfl fun s _ => ?_
    rw [famCount, Finset.filter_filter]
    congr 1
    exact Finset.filter_congr fun i _ => and_comm
  · intro i _
    simp [hR i]

/-- If every assignment has nearly its probability among sufficiently many rows, every estimate for a possible configuration of the
parents is close to the conditional probability. -/
theorem estimates_close (h : IsModel dom vs par Q) {x₀ : V → S} (hx₀ : ∀ v ∈ vs, x₀ v ∈ dom v) {a : FitArgs ℝ}
    (hess : ∀ n, a.ess = some n → 0 < n) {ε : ℝ} (hε : 0 < ε) : ∃ δ, 0 < δ ∧ ∃ n₀ : ℕ, 0 < n₀ ∧ ∀ n, n₀ ≤ n → ∀ R : Fin n → V → S,
      (∀ i, ∀ v ∈ vs, R i v ∈ dom v) → (∀ σ ∈ worlds dom vs x₀, |(cell vs R σ : ℝ) / n - truth vs par Q σ| ≤ δ) →
      ∀ v ∈ vs, ∀ z : V → S, (∀ u ∈ vs, z u ∈ dom u) → 0 < massWith dom vs (truth vs par Q) x₀ (fun x => (par v).map x = (par v).map z) →
        ∀ s ∈ dom v, |estimate a (dom v) ((par v).map fun p => (dom p).length).prod (famCount par R v ((par v).map z)) s -
          Q v s ((par v).map z)| ≤ ε := by
  obtain ⟨D, hD, hlow⟩ := exists_lower (vs.flatMap fun v => (worlds dom vs x₀).map fun z => (v, z))
    fun q => massWith dom vs (truth vs par Q) x₀ (fun x => (par q.1).map x = (par q.1).map q.2)
  obtain ⟨k, hk, hkv⟩ := exists_upper vs fun v => ((dom v).length : ℝ)
  have he : 0 ≤ a.ess.getD 0 := by
    cases e : a.ess with
    | none => simp
    | some n => exact (hess n e).le
  set W : ℝ := ((worlds dom vs x₀).length : ℝ) with hW
  have hW0 : 0 ≤ W := Nat.cast_nonneg _
  set δ' : ℝ := min (D / 2) (ε * D / 8) with hδ'
  have hδ'0 : 0 < δ' := lt_min (by positivity) (by positivity)
  obtain ⟨m, hm⟩ := exists_nat_gt ((1 + a.ess.getD 0) * (1 + k) * 4 / (ε * D))
  refine ⟨δ' / (W + 1), by positivity, m + 1, Nat.succ_pos _, fun n hn R hR hcell v hv z hz hpos s hs => ?_⟩
  have hn0 : (0 : ℝ) < n := by
    have : 0 < n := by omega
    exact_mod_cast this
  have hmn : (m : ℝ) ≤ n := by
    have : m ≤ n := by omega
    exact_mod_cast this
  have hWδ : W * (δ' / (W + 1)) ≤ δ' := by
    rw [mul_div_assoc', div_le_iff₀ (by positivity)]
    nlinarith
  have hfreq : ∀ (A : (V → S) → Prop) [DecidablePred A], (∀ x y : V → S, (∀ v ∈ vs, x v = y v) → (A x ↔ A y)) →
      |((Finset.univ.filter fun i => A (R i)).card : ℝ) / n - massWith dom vs (truth vs par Q) x₀ A| ≤ δ' := by
    intro A _ hA
    rw [count_eq h.nodup h.states hR x₀ A hA]
    have e : massWith dom vs (fun σ => (cell vs R σ : ℝ)) x₀ A / n = massWith dom vs (fun σ => (cell vs R σ : ℝ) / n) x₀ A := by
      unfold massWith
      simp only [div_eq_mul_inv]
      rw [List.sum_map_mul_right]
    rw [e]
    exact (massWith_near (by positivity) hcell A).trans hWδ
  have hmapc : ∀ x y : V → S, (∀ v ∈ vs, x v = y v) → (par v).map x = (par v).map y := fun x y e =>
    List.map_congr_left fun p hp => e p (h.parents v hv p hp)
  have h1 := hfreq (fun x => (par v).map x = (par v).map z) fun x y e => by rw [hmapc x y e]
  have h2 := hfreq (fun x => x v = s ∧ (par v).map x = (par v).map z) fun x y e => by rw [hmapc x y e, e v hv]
  have hDle : D ≤ massWith dom vs (truth vs par Q) x₀ (fun x => (par v).map x = (par v).map z) := by
    obtain ⟨z', hz', hzz⟩ := Verif.Network.mem_worlds (dom := dom) (vs := vs) (x₀ := x₀) (y := z) hz
    have h3 := hlow (v, z') (List.mem_flatMap.2 ⟨v, hv, List.mem_map.2 ⟨z', hz', rfl⟩⟩)
    simp only [hmapc z' z hzz] at h3
    exact h3 hpos
  have hcond := h.conditional hv hs hx₀ z
  generalize massWith dom vs (truth vs par Q) x₀ (fun x => (par v).map x = (par v).map z) = M at *
  have hcfg : List.Forall₂ (fun s p => s ∈ dom p) ((par v).map z) (par v) := h.config fun p hp => hz p (h.parents v hv p hp)
  have hsum := famCount_sum (par := par) (h.states v hv) (fun i => hR i v hv) ((par v).map z)
  have hδD : δ' ≤ D / 2 := min_le_left _ _
  have hδε : δ' ≤ ε * D / 8 := min_le_right _ _
  have hcfgs : 0 < ((par v).map fun p => (dom p).length).prod := by
    refine List.prod_pos fun y hy => ?_
    obtain ⟨p, hp, rfl⟩ := List.mem_map.1 hy
    exact List.length_pos_of_mem (hz p (h.parents v hv p hp))
  have hnum : 0 < ((dom v).map (famCount par R v ((par v).map z))).sum := by
    rw [hsum]
    by_contra h0
    have h0' : (Finset.univ.filter fun i => (par v).map (R i) = (par v).map z).card = 0 := by omega
    rw [h0'] at h1
    have h4 := (abs_le.1 h1).1
    simp at h4
    linarith
  obtain ⟨α, hα0, hα1, hest⟩ := estimate_form hess hcfgs hnum (List.ne_nil_of_mem hs) s
  rw [hest, hsum]
  have e : ((famCount par R v ((par v).map z) s : ℝ) + α) /
      (((Finset.univ.filter fun i => (par v).map (R i) = (par v).map z).card : ℕ) + (dom v).length * α) =
      ((famCount par R v ((par v).map z) s : ℝ) / n + α / n) /
      (((Finset.univ.filter fun i => (par v).map (R i) = (par v).map z).card : ℝ) / n + (dom v).length * (α / n)) := by
    rw [← add_div, mul_div_assoc', ← add_div, div_div_div_cancel_right₀ hn0.ne']
  rw [e]
  refine (ratio_close hcond (hD.trans_le hDle) (h.nonneg v hv _ hcfg s hs) (h.le_one hv hcfg hs) h2 h1 (by linarith) (by positivity)
    (Nat.cast_nonneg _)).trans ?_
  have hb : α / n * (1 + (dom v).length) ≤ ε * D / 4 := by
    have h5 : α * (1 + ((dom v).length : ℝ)) ≤ (1 + a.ess.getD 0) * (1 + k) :=
      mul_le_mul hα1 (by linarith [hkv v hv]) (by positivity) (by positivity)
    have h6 : (1 + a.ess.getD 0) * (1 + k) * 4 < n * (ε * D) := by
      rw [div_lt_iff₀ (by positivity)] at hm
      nlinarith [mul_pos hε hD]
    rw [div_mul_eq_mul_div, div_le_iff₀ hn0]
    linarith
  rw [div_le_iff₀ (hD.trans_le hDle)]
  nlinarith

end

end Verif.Consistent
