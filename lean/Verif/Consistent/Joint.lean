import Verif.Consistent.Estimate
import Verif.Network.Likelihood

/-!
# The distribution defined by the estimates is close to the true one
-/

namespace Verif.Consistent

open Verif.BBN Function
open Verif.Network (FitArgs estimate)

section
set_option linter.unusedSectionVars false
variable {V S : Type} [LinearOrder V] [LinearOrder S]

theorem prod_close {α : Type} {l : List α} {f g : α → ℝ} {η : ℝ} (hf : ∀ x ∈ l, 0 ≤ f x ∧ f x ≤ 1) (hg : ∀ x ∈ l, 0 ≤ g x ∧ g x ≤ 1)
    (h : ∀ x ∈ l, |f x - g x| ≤ η) : |(l.map f).prod - (l.map g).prod| ≤ l.length * η ∧ 0 ≤ (l.map g).prod ∧ (l.map g).prod ≤ 1 := by
  induction l with
  | nil => simp
  | cons y l ih =>
    obtain ⟨h1, h2, h3⟩ := ih (fun x hx => hf x (List.mem_cons_of_mem _ hx)) (fun x hx => hg x (List.mem_cons_of_mem _ hx))
      (fun x hx => h x (List.mem_cons_of_mem _ hx))
    obtain ⟨f0, f1⟩ := hf y List.mem_cons_self
    obtain ⟨g0, g1⟩ := hg y List.mem_cons_self
    have hy := h y List.mem_cons_self
    rw [List.map_cons, List.map_cons, List.prod_cons, List.prod_cons, List.length_cons]
    push_cast
    refine ⟨?_, mul_nonneg g0 h2, mul_le_one₀ g1 h2 h3⟩
    have e : f y * (l.map f).prod - g y * (l.map g).prod = f y * ((l.map f).prod - (l.map g).prod) + (f y - g y) * (l.map g).prod := by ring
    rw [e]
    refine (abs_add_le _ _).trans ?_
    rw [abs_mul, abs_mul, abs_of_nonneg f0, abs_of_nonneg h2]
    have t1 : f y * |(l.map f).prod - (l.map g).prod| ≤ 1 * |(l.map f).prod - (l.map g).prod| := mul_le_mul_of_nonneg_right f1 (abs_nonneg _)
    have t2 : |f y - g y| * (l.map g).prod ≤ |f y - g y| * 1 := mul_le_mul_of_nonneg_left h3 (abs_nonneg _)
    linarith

theorem prod_le_factor {α : Type} {l : List α} {f : α → ℝ} (hf : ∀ x ∈ l, 0 ≤ f x ∧ f x ≤ 1) {y : α} (hy : y ∈ l) :
    0 ≤ (l.map f).prod ∧ (l.map f).prod ≤ 1 ∧ (l.map f).prod ≤ f y := by
  induction l with
  | nil => simp at hy
  | cons z l ih =>
    obtain ⟨f0, f1⟩ := hf z List.mem_cons_self
    have hl : 0 ≤ (l.map f).prod ∧ (l.map f).prod ≤ 1 := by
      have := prod_close (l := l) (f := f) (g := f) (η := 0) (fun x hx => hf x (List.mem_cons_of_mem _ hx)) (fun x hx => hf x (List.mem_cons_of_mem _ hx))
        (fun x _ => by simp)
      exact this.2
    rw [List.map_cons, List.prod_cons]
    refine ⟨mul_nonneg f0 hl.1, mul_le_one₀ f1 hl.1 hl.2, ?_⟩
    rcases List.mem_cons.1 hy with rfl | hy
    · calc f y * (l.map f).prod ≤ f y * 1 := mul_le_mul_of_nonneg_left hl.2 f0
        _ = f y := mul_one _
    · have h1 := (ih (fun x hx => hf x (List.mem_cons_of_mem _ hx)) hy).2.2
      calc f z * (l.map f).prod ≤ 1 * (l.map f).prod := mul_le_mul_of_nonneg_right f1 hl.1
        _ ≤ f y := by rw [one_mul]; exact h1

variable {dom : V → List S} {vs : List V} {par : V → List V} {Q : V → S → List S → ℝ}

/-- The probability of an assignment according to the estimates. -/
noncomputable def estJoint {n : ℕ} (dom : V → List S) (vs : List V) (par : V → List V) (a : FitArgs ℝ) (R : Fin n → V → S) (x : V → S) : ℝ :=
  (vs.map fun v => estimate a (dom v) ((par v).map fun p => (dom p).length).prod (famCount par R v ((par v).map x)) (x v)).prod

theorem estimate_unit {a : FitArgs ℝ} (hess : ∀ n, a.ess = some n → 0 < n)
    (hm : a.method = "MaximumLikelihoodEstimator" ∨ a.prior = some "K2" ∨ a.ess ≠ none)
    {ks : List S} {cfgs : ℕ} (hc : 0 < cfgs) (N : S → ℕ) {s : S} (hs : s ∈ ks) : 0 ≤ estimate a ks cfgs N s ∧ estimate a ks cfgs N s ≤ 1 := by
  obtain ⟨h1, h2⟩ := Verif.Network.estimate_prob hess hm (List.ne_nil_of_mem hs) hc N
  refine ⟨h1 s, ?_⟩
  rw [← h2]
  refine List.single_le_sum ?_ _ (List.mem_map.2 ⟨s, hs, rfl⟩)
  intro y hy
  obtain ⟨t, -, rfl⟩ := List.mem_map.1 hy
  exact h1 t

/-- If the estimates for possible configurations of parents are close to the conditional probabilities, the joint probabilities are close. -/
theorem joints_close (h : IsModel dom vs par Q) {x₀ : V → S} {a : FitArgs ℝ} (hess : ∀ n, a.ess = some n → 0 < n)
    (hm : a.method = "MaximumLikelihoodEstimator" ∨ a.prior = some "K2" ∨ a.ess ≠ none) {η : ℝ} (hη : 0 ≤ η) {n : ℕ} {R : Fin n → V → S}
    (hest : ∀ v ∈ vs, ∀ z : V → S, (∀ u ∈ vs, z u ∈ dom u) → 0 < massWith dom vs (truth vs par Q) x₀ (fun x => (par v).map x = (par v).map z) →
        ∀ s ∈ dom v, |estimate a (dom v) ((par v).map fun p => (dom p).length).prod (famCount par R v ((par v).map z)) s -
          Q v s ((par v).map z)| ≤ η) {σ : V → S} (hσ : σ ∈ worlds dom vs x₀) :
    |estJoint dom vs par a R σ - truth vs par Q σ| ≤ vs.length * η := by
  have hv : ∀ v ∈ vs, σ v ∈ dom v := fun v hv => (worlds_valid hσ v).1 hv
  have hcfg : ∀ v ∈ vs, List.Forall₂ (fun s p => s ∈ dom p) ((par v).map σ) (par v) := fun v hv' =>
    h.config fun p hp => hv p (h.parents v hv' p hp)
  have hcfgs : ∀ v ∈ vs, 0 < ((par v).map fun p => (dom p).length).prod := by
    intro v hv'
    refine List.prod_pos fun y hy => ?_
    obtain ⟨p, hp, rfl⟩ := List.mem_map.1 hy
    exact List.length_pos_of_mem (hv p (h.parents v hv' p hp))
  have hE : ∀ v ∈ vs, 0 ≤ estimate a (dom v) ((par v).map fun p => (dom p).length).prod (famCount par R v ((par v).map σ)) (σ v) ∧
      estimate a (dom v) ((par v).map fun p => (dom p).length).prod (famCount par R v ((par v).map σ)) (σ v) ≤ 1 := fun v hv' =>
    estimate_unit hess hm (hcfgs v hv') _ (hv v hv')
  have hQ : ∀ v ∈ vs, 0 ≤ Q v (σ v) ((par v).map σ) ∧ Q v (σ v) ((par v).map σ) ≤ 1 := fun v hv' =>
    ⟨h.nonneg v hv' _ (hcfg v hv') _ (hv v hv'), h.le_one hv' (hcfg v hv') (hv v hv')⟩
  by_cases hall : ∀ v ∈ vs, 0 < massWith dom vs (truth vs par Q) x₀ (fun x => (par v).map x = (par v).map σ)
  · exact (prod_close hE hQ fun v hv' => hest v hv' σ hv (hall v hv') _ (hv v hv')).1
  · push Not at hall
    obtain ⟨v, hv', h0⟩ := hall
    have h1 : massWith dom vs (truth vs par Q) x₀ (fun x => (par v).map x = (par v).map σ) = 0 := by
      refine le_antisymm h0 ?_
      unfold massWith
      refine List.sum_nonneg fun y hy => ?_
      obtain ⟨x, hx, rfl⟩ := List.mem_map.1 hy
      have hxv := worlds_valid (List.mem_filter.1 hx).1
      refine List.prod_nonneg fun y hy => ?_
      obtain ⟨u, hu, rfl⟩ := List.mem_map.1 hy
      exact h.nonneg u hu _ (h.config fun p hp => (hxv p).1 (h.parents u hu p hp)) _ ((hxv u).1 hu)
    rw [← massWith_world hσ] at h1
    obtain ⟨u, hu, hup, hu0⟩ := h.impossible hv hv' h1
    rw [massWith_world hσ] at hup
    have h2 := hest u hu σ hv hup _ (hv u hu)
    rw [hu0, sub_zero, abs_of_nonneg (hE u hu).1] at h2
    have h3 := prod_le_factor hE hu
    have h4 : truth vs par Q σ = 0 := List.prod_eq_zero (List.mem_map.2 ⟨u, hu, hu0⟩)
    rw [h4, sub_zero]
    change |(vs.map fun v => _).prod| ≤ _
    rw [abs_of_nonneg h3.1]
    refine (h3.2.2.trans h2).trans ?_
    have h5 : (1 : ℝ) ≤ vs.length := by
      exact_mod_cast List.length_pos_of_mem hu
    nlinarith

theorem IsModel.truth_nonneg (h : IsModel dom vs par Q) {x : V → S} (hx : ∀ v ∈ vs, x v ∈ dom v) : 0 ≤ truth vs par Q x := by
  refine List.prod_nonneg fun y hy => ?_
  obtain ⟨u, hu, rfl⟩ := List.mem_map.1 hy
  exact h.nonneg u hu _ (h.config fun p hp => hx p (h.parents u hu p hp)) _ (hx u hu)

theorem IsModel.mass_nonneg (h : IsModel dom vs par Q) (x₀ : V → S) (A : (V → S) → Prop) [DecidablePred A] :
    0 ≤ massWith dom vs (truth vs par Q) x₀ A := by
  unfold massWith
  refine List.sum_nonneg fun y hy => ?_
  obtain ⟨x, hx, rfl⟩ := List.mem_map.1 hy
  exact h.truth_nonneg fun v hv => (worlds_valid (List.mem_filter.1 hx).1 v).1 hv

theorem IsModel.mass_mono (h : IsModel dom vs par Q) (x₀ : V → S) {A B : (V → S) → Prop} [DecidablePred A] [DecidablePred B] (hAB : ∀ x, A x → B x) :
    massWith dom vs (truth vs par Q) x₀ A ≤ massWith dom vs (truth vs par Q) x₀ B := by
  unfold massWith
  have h0 : ∀ x ∈ worlds dom vs x₀, 0 ≤ truth vs par Q x := fun x hx => h.truth_nonneg fun v hv => (worlds_valid hx v).1 hv
  generalize worlds dom vs x₀ = l at h0 ⊢
  induction l with
  | nil => simp
  | cons y l ih =>
    have h1 := ih fun x hx => h0 x (List.mem_cons_of_mem _ hx)
    have h2 := h0 y List.mem_cons_self
    by_cases hA : A y
    · rw [List.filter_cons_of_pos (by simpa using hA), List.filter_cons_of_pos (by simpa using hAB y hA)]
      simpa using h1
    · rw [List.filter_cons_of_neg (by simpa using hA)]
      by_cases hB : B y
      · rw [List.filter_cons_of_pos (by simpa using hB), List.map_cons, List.sum_cons]
        linarith
      · rw [List.filter_cons_of_neg (by simpa using hB)]
        exact h1

/-- The probabilities of all assignments add up to one. -/
theorem IsModel.total (h : IsModel dom vs par Q) {x₀ : V → S} (hx₀ : ∀ v ∈ vs, x₀ v ∈ dom v) : sumOver dom vs (truth vs par Q) x₀ = 1 := by
  obtain ⟨dom', hdom, hd, hx⟩ := exists_total_dom h.states' (x₀ := x₀) (by rw [nodesOf_vars]; exact hx₀)
  have hnorm : Normalised dom' (nodesOf vs par Q) := fun n hn x hx => by
    rw [hdom _ (List.mem_map_of_mem hn)]
    exact h.normalised' n hn x fun a ha hav => by
      rw [← hdom a (h.wf.args_sub n hn a ha)]; exact hx a ha hav
  have h1 := massOf_total h.wf h.acyclic' hnorm hx
  rw [massOf_dom_congr hdom, massOf_nodesOf, massWith_eq_sumOver] at h1
  simpa using h1

theorem truth_congr (h : IsModel dom vs par Q) {x y : V → S} (hxy : ∀ v ∈ vs, x v = y v) : truth vs par Q x = truth vs par Q y := by
  unfold truth
  congr 1
  refine List.map_congr_left fun v hv => ?_
  rw [hxy v hv, List.map_congr_left fun p hp => hxy p (h.parents v hv p hp)]

/-- The events of positive probability have at least a certain probability. -/
theorem exists_least_mass (h : IsModel dom vs par Q) (x₀ : V → S) : ∃ D, 0 < D ∧ ∀ (A : (V → S) → Prop) [DecidablePred A],
    0 < massWith dom vs (truth vs par Q) x₀ A → D ≤ massWith dom vs (truth vs par Q) x₀ A := by
  obtain ⟨D, hD, hlow⟩ := exists_lower (worlds dom vs x₀) (truth vs par Q)
  refine ⟨D, hD, fun A _ hA => ?_⟩
  unfold massWith at *
  have hnn : ∀ y ∈ ((worlds dom vs x₀).filter fun x => A x).map (truth vs par Q), 0 ≤ y := by
    intro y hy
    obtain ⟨x, hx, rfl⟩ := List.mem_map.1 hy
    exact h.truth_nonneg fun v hv => (worlds_valid (List.mem_filter.1 hx).1 v).1 hv
  have : ∃ y ∈ ((worlds dom vs x₀).filter fun x => A x).map (truth vs par Q), 0 < y := by
    by_contra hc
    push Not at hc
    have := List.sum_eq_zero fun y hy => le_antisymm (hc y hy) (hnn y hy)
    linarith
  obtain ⟨y, hy, hy0⟩ := this
  refine le_trans ?_ (List.single_le_sum hnn y hy)
  obtain ⟨x, hx, rfl⟩ := List.mem_map.1 hy
  exact hlow x (List.mem_filter.1 hx).1 hy0

/-- **Deterministic part**: with sufficiently many rows among which every assignment has nearly its probability, the estimates, and all
conditional probabilities of events computed from the estimates, are close to the true ones. -/
theorem everything_close (h : IsModel dom vs par Q) {x₀ : V → S} (hx₀ : ∀ v ∈ vs, x₀ v ∈ dom v) {a : FitArgs ℝ}
    (hess : ∀ n, a.ess = some n → 0 < n) (hm : a.method = "MaximumLikelihoodEstimator" ∨ a.prior = some "K2" ∨ a.ess ≠ none)
    {ε : ℝ} (hε : 0 < ε) : ∃ δ, 0 < δ ∧ ∃ n₀ : ℕ, 0 < n₀ ∧ ∀ n, n₀ ≤ n → ∀ R : Fin n → V → S,
      (∀ i, ∀ v ∈ vs, R i v ∈ dom v) → (∀ σ ∈ worlds dom vs x₀, |(cell vs R σ : ℝ) / n - truth vs par Q σ| ≤ δ) →
      (∀ v ∈ vs, ∀ z : V → S, (∀ u ∈ vs, z u ∈ dom u) → 0 < massWith dom vs (truth vs par Q) x₀ (fun x => (par v).map x = (par v).map z) →
        ∀ s ∈ dom v, |estimate a (dom v) ((par v).map fun p => (dom p).length).prod (famCount par R v ((par v).map z)) s -
          Q v s ((par v).map z)| ≤ ε) ∧
      ∀ (A B : (V → S) → Prop) [DecidablePred A] [DecidablePred B], (∀ x, A x → B x) → 0 < massWith dom vs (truth vs par Q) x₀ B →
        0 < massWith dom vs (estJoint dom vs par a R) x₀ B ∧
        |massWith dom vs (estJoint dom vs par a R) x₀ A / massWith dom vs (estJoint dom vs par a R) x₀ B -
          massWith dom vs (truth vs par Q) x₀ A / massWith dom vs (truth vs par Q) x₀ B| ≤ ε := by
  obtain ⟨D, hD, hlow⟩ := exists_least_mass h x₀
  set W : ℝ := ((worlds dom vs x₀).length : ℝ) with hW
  have hW0 : 0 ≤ W := Nat.cast_nonneg _
  have hL0 : (0 : ℝ) ≤ vs.length := Nat.cast_nonneg _
  set κ : ℝ := min (D / 4) (ε * D / 8) with hκ
  have hκ0 : 0 < κ := lt_min (by positivity) (by positivity)
  set η : ℝ := min ε (κ / (W * vs.length + 1)) with hη
  have hη0 : 0 < η := lt_min hε (by positivity)
  obtain ⟨δ, hδ, n₀, hn₀, hest⟩ := estimates_close h hx₀ hess hη0
  refine ⟨δ, hδ, n₀, hn₀, fun n hn R hR hcell => ?_⟩
  have h1 := hest n hn R hR hcell
  refine ⟨fun v hv z hz hp s hs => (h1 v hv z hz hp s hs).trans (min_le_left _ _), fun A B _ _ hAB hB => ?_⟩
  have hJ := fun σ hσ => joints_close h (x₀ := x₀) hess hm hη0.le h1 (σ := σ) hσ
  have hM : ∀ (A : (V → S) → Prop) [DecidablePred A], |massWith dom vs (estJoint dom vs par a R) x₀ A - massWith dom vs (truth vs par Q) x₀ A| ≤ κ := by
    intro A _
    refine (massWith_near (by positivity) hJ A).trans ?_
    have h2 : η ≤ κ / (W * vs.length + 1) := min_le_right _ _
    rw [le_div_iff₀ (by positivity)] at h2
    rw [← hW]
    nlinarith
  have hDB := hlow B hB
  have hκD : κ ≤ D / 4 := min_le_left _ _
  have hκε : κ ≤ ε * D / 8 := min_le_right _ _
  have hBc := hM B
  refine ⟨by have := (abs_le.1 hBc).1; linarith, ?_⟩
  have hq := ratio_close (b := 0) (k := 0) (C := massWith dom vs (truth vs par Q) x₀ A) (D := massWith dom vs (truth vs par Q) x₀ B)
    (q := massWith dom vs (truth vs par Q) x₀ A / massWith dom vs (truth vs par Q) x₀ B) (by field_simp) hB
    (div_nonneg (h.mass_nonneg _ _) hB.le) (div_le_one_of_le₀ (h.mass_mono _ hAB) hB.le) (hM A) hBc (by linarith) le_rfl le_rfl
  simp only [add_zero, mul_zero, zero_mul] at hq
  refine hq.trans ?_
  rw [div_le_iff₀ hB]
  nlinarith

end

end Verif.Consistent
