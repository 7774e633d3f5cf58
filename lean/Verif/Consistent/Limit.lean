import Verif.Consistent.Props

/-!
# Estimates from rows of a distribution that need not have the structure of the network
-/

namespace Verif.Consistent

open Verif.BBN Function
open Verif.Network (FitArgs estimate)

section
set_option linter.unusedSectionVars false
variable {V S : Type} [LinearOrder V] [LinearOrder S] {dom : V → List S} {vs : List V} {par : V → List V} {Q : V → S → List S → ℝ}

/-- `Q` consists of the conditional probabilities, given the parents, of the distribution `J`, and of equal probabilities where the states
of the parents are impossible. -/
structure IsLimit (dom : V → List S) (vs : List V) (par : V → List V) (Q : V → S → List S → ℝ) (J : (V → S) → ℝ) (x₀ : V → S) : Prop where
  nonneg : ∀ x ∈ worlds dom vs x₀, 0 ≤ J x
  cond : ∀ v ∈ vs, ∀ z : V → S, (∀ u ∈ vs, z u ∈ dom u) → ∀ s ∈ dom v,
    massWith dom vs J x₀ (fun x => x v = s ∧ (par v).map x = (par v).map z) =
      Q v s ((par v).map z) * massWith dom vs J x₀ (fun x => (par v).map x = (par v).map z)
  unseen : ∀ v ∈ vs, ∀ z : V → S, (∀ u ∈ vs, z u ∈ dom u) → massWith dom vs J x₀ (fun x => (par v).map x = (par v).map z) = 0 →
    ∀ s ∈ dom v, Q v s ((par v).map z) = 1 / (dom v).length

theorem mass_nonneg_of {J : (V → S) → ℝ} {x₀ : V → S} (h : ∀ x ∈ worlds dom vs x₀, 0 ≤ J x) (A : (V → S) → Prop) [DecidablePred A] :
    0 ≤ massWith dom vs J x₀ A := by
  unfold massWith
  refine List.sum_nonneg fun y hy => ?_
  obtain ⟨x, hx, rfl⟩ := List.mem_map.1 hy
  exact h x (List.mem_filter.1 hx).1

theorem estimate_unseen {a : FitArgs ℝ} (hess : ∀ n, a.ess = some n → 0 < n)
    (hm : a.method = "MaximumLikelihoodEstimator" ∨ a.prior = some "K2" ∨ a.ess ≠ none) {ks : List S} {cfgs : ℕ} {N : S → ℕ}
    (hc : 0 < cfgs) (hN : ∀ s, N s = 0) (hk : ks ≠ []) (s : S) : estimate a ks cfgs N s = 1 / ks.length := by
  have h0 : (ks.map N).sum = 0 := List.sum_eq_zero fun y hy => by
    obtain ⟨t, -, rfl⟩ := List.mem_map.1 hy
    exact hN t
  have hk' : (0 : ℝ) < ks.length := by exact_mod_cast List.length_pos_iff.2 hk
  have hc' : (0 : ℝ) < cfgs := by exact_mod_cast hc
  unfold estimate
  simp only
  by_cases h1 : a.method = "MaximumLikelihoodEstimator"
  · rw [if_pos h1, if_pos h0]
  · rw [if_neg h1]
    by_cases h2 : a.prior = some "K2"
    · rw [if_pos h2, h0, hN]
      simp
    · rw [if_neg h2, h0, hN]
      rcases hm with h | h | h
      · exact absurd h h1
      · exact absurd h h2
      · obtain ⟨e, he⟩ := Option.ne_none_iff_exists'.1 h
        have := hess e he
        rw [he]
        simp only [Option.getD_some, Nat.cast_zero, zero_add]
        field_simp

/-- The estimates are close to the limit tables. -/
theorem estimates_limit (h : IsModel dom vs par Q) {J : (V → S) → ℝ} {x₀ : V → S} (hJ : IsLimit dom vs par Q J x₀) {a : FitArgs ℝ}
    (hess : ∀ n, a.ess = some n → 0 < n) (hm : a.method = "MaximumLikelihoodEstimator" ∨ a.prior = some "K2" ∨ a.ess ≠ none) {ε : ℝ} (hε : 0 < ε) :
    ∃ δ, 0 < δ ∧ ∃ n₀ : ℕ, 0 < n₀ ∧ ∀ n, n₀ ≤ n → ∀ R : Fin n → V → S,
      (∀ i, ∀ v ∈ vs, R i v ∈ dom v) → (∀ i, ∀ v ∈ vs, massWith dom vs J x₀ (fun x => (par v).map x = (par v).map (R i)) ≠ 0) →
      (∀ σ ∈ worlds dom vs x₀, |(cell vs R σ : ℝ) / n - J σ| ≤ δ) →
      ∀ v ∈ vs, ∀ z : V → S, (∀ u ∈ vs, z u ∈ dom u) →
        ∀ s ∈ dom v, |estimate a (dom v) ((par v).map fun p => (dom p).length).prod (famCount par R v ((par v).map z)) s -
          Q v s ((par v).map z)| ≤ ε := by
  obtain ⟨D, hD, hlow⟩ := exists_lower (vs.flatMap fun v => (worlds dom vs x₀).map fun z => (v, z))
    fun q => massWith dom vs J x₀ (fun x => (par q.1).map x = (par q.1).map q.2)
  obtain ⟨k, hk, hkv⟩ := exists_upper vs fun v => ((dom v).length : ℝ)
  have he : 0 ≤ a.ess.getD 0 := by
    cases e : a.ess with
    | none => simp
    | some n => exact (hess n e).le
  set W : ℝ := ((worlds dom vs x₀).length : ℝ) with hW
  have hW0 : 0 ≤ W := Nat.cast_nonneg _
  set δ' : ℝ := min (D / 2) (ε * D / 8) with hδ'
  have hδ'0 : 0 < δ' := lt_min (by positivity) (by positivity)
  obtain ⟨m, hm'⟩ := exists_nat_gt ((1 + a.ess.getD 0) * (1 + k) * 4 / (ε * D))
  refine ⟨δ' / (W + 1), by positivity, m + 1, Nat.succ_pos _, fun n hn R hR hposs hcell v hv z hz s hs => ?_⟩
  have hn0 : (0 : ℝ) < n := by
    have : 0 < n := by omega
    exact_mod_cast this
  have hmn : (m : ℝ) ≤ n := by
    have : m ≤ n := by omega
    exact_mod_cast this
  have hWδ : W * (δ' / (W + 1)) ≤ δ' := by
    rw [mul_div_assoc', div_le_iff₀ (by positivity)]
    nlinarith
  have hfreq : ∀ (A : (V → S) → Prop) [DecidablePred A], (∀ x y : V → S, (∀ v ∈ vs, x v = y v) → (A x ↔ A y)) →
      |((Finset.univ.filter fun i => A (R i)).card : ℝ) / n - massWith dom vs J x₀ A| ≤ δ' := by
    intro A _ hA
    rw [count_eq h.nodup h.states hR x₀ A hA]
    have e : massWith dom vs (fun σ => (cell vs R σ : ℝ)) x₀ A / n = massWith dom vs (fun σ => (cell vs R σ : ℝ) / n) x₀ A := by
      unfold massWith
      simp only [div_eq_mul_inv]
      rw [List.sum_map_mul_right]
    rw [e]
    exact (massWith_near (by positivity) hcell A).trans hWδ
  have hmapc : ∀ x y : V → S, (∀ v ∈ vs, x v = y v) → (par v).map x = (par v).map y := fun x y e =>
    List.map_congr_left fun p hp => e p (h.parents v hv p hp)
  have hcfgs : 0 < ((par v).map fun p => (dom p).length).prod := by
    refine List.prod_pos fun y hy => ?_
    obtain ⟨p, hp, rfl⟩ := List.mem_map.1 hy
    exact List.length_pos_of_mem (hz p (h.parents v hv p hp))
  rcases (mass_nonneg_of hJ.nonneg (fun x => (par v).map x = (par v).map z)).eq_or_lt with h0 | hpos
  · rw [hJ.unseen v hv z hz h0.symm s hs, estimate_unseen hess hm hcfgs _ (List.ne_nil_of_mem hs), sub_self, abs_zero]
    · exact hε.le
    · intro t
      rw [famCount, Finset.card_eq_zero, Finset.filter_eq_empty_iff]
      rintro i - ⟨-, hi⟩
      apply hposs i v hv
      simp only [hi]
      exact h0.symm
  have h1 := hfreq (fun x => (par v).map x = (par v).map z) fun x y e => by rw [hmapc x y e]
  have h2 := hfreq (fun x => x v = s ∧ (par v).map x = (par v).map z) fun x y e => by rw [hmapc x y e, e v hv]
  have hDle : D ≤ massWith dom vs J x₀ (fun x => (par v).map x = (par v).map z) := by
    obtain ⟨z', hz', hzz⟩ := Verif.Network.mem_worlds (dom := dom) (vs := vs) (x₀ := x₀) (y := z) hz
    have h3 := hlow (v, z') (List.mem_flatMap.2 ⟨v, hv, List.mem_map.2 ⟨z', hz', rfl⟩⟩)
    simp only [hmapc z' z hzz] at h3
    exact h3 hpos
  have hcond := hJ.cond v hv z hz s hs
  generalize massWith dom vs J x₀ (fun x => (par v).map x = (par v).map z) = M at *
  have hcfg : List.Forall₂ (fun s p => s ∈ dom p) ((par v).map z) (par v) := h.config fun p hp => hz p (h.parents v hv p hp)
  have hsum := famCount_sum (par := par) (h.states v hv) (fun i => hR i v hv) ((par v).map z)
  have hδD : δ' ≤ D / 2 := min_le_left _ _
  have hδε : δ' ≤ ε * D / 8 := min_le_right _ _
  have hnum : 0 < ((dom v).map (famCount par R v ((par v).map z))).sum := by
    rw [hsum]
    by_contra h0
    have h0' : (Finset.univ.filter fun i => (par v).map (R i) = (par v).map z).card = 0 := by omega
    rw [h0'] at h1
    have h4 := (abs_le.1 h1).1
    simp at h4
    linarith
  obtain ⟨α, hα0, hα1, hest⟩ := estimate_form hess hcfgs hnum (List.ne_nil_of_mem hs) s
  rw [hest, hsum]
  have e : ((famCount par R v ((par v).map z) s : ℝ) + α) /
      (((Finset.univ.filter fun i => (par v).map (R i) = (par v).map z).card : ℕ) + (dom v).length * α) =
      ((famCount par R v ((par v).map z) s : ℝ) / n + α / n) /
      (((Finset.univ.filter fun i => (par v).map (R i) = (par v).map z).card : ℝ) / n + (dom v).length * (α / n)) := by
    rw [← add_div, mul_div_assoc', ← add_div, div_div_div_cancel_right₀ hn0.ne']
  rw [e]
  refine (ratio_close hcond (hD.trans_le hDle) (h.nonneg v hv _ hcfg s hs) (h.le_one hv hcfg hs) h2 h1 (by linarith) (by positivity)
    (Nat.cast_nonneg _)).trans ?_
  have hb : α / n * (1 + (dom v).length) ≤ ε * D / 4 := by
    have h5 : α * (1 + ((dom v).length : ℝ)) ≤ (1 + a.ess.getD 0) * (1 + k) :=
      mul_le_mul hα1 (by linarith [hkv v hv]) (by positivity) (by positivity)
    have h6 : (1 + a.ess.getD 0) * (1 + k) * 4 < n * (ε * D) := by
      rw [div_lt_iff₀ (by positivity)] at hm'
      nlinarith [mul_pos hε hD]
    rw [div_mul_eq_mul_div, div_le_iff₀ hn0]
    linarith
  rw [div_le_iff₀ (hD.trans_le hDle)]
  nlinarith

/-- Estimates close to the limit tables give answers close to those of the limit network. -/
theorem answers_limit (h : IsModel dom vs par Q) (x₀ : V → S) {a : FitArgs ℝ} (hess : ∀ n, a.ess = some n → 0 < n)
    (hm : a.method = "MaximumLikelihoodEstimator" ∨ a.prior = some "K2" ∨ a.ess ≠ none) {ε : ℝ} (hε : 0 < ε) :
    ∃ η, 0 < η ∧ ∀ n, ∀ R : Fin n → V → S,
      (∀ v ∈ vs, ∀ z : V → S, (∀ u ∈ vs, z u ∈ dom u) →
        ∀ s ∈ dom v, |estimate a (dom v) ((par v).map fun p => (dom p).length).prod (famCount par R v ((par v).map z)) s -
          Q v s ((par v).map z)| ≤ η) →
      ∀ (A B : (V → S) → Prop) [DecidablePred A] [DecidablePred B], (∀ x, A x → B x) → 0 < massWith dom vs (truth vs par Q) x₀ B →
        0 < massWith dom vs (estJoint dom vs par a R) x₀ B ∧
        |massWith dom vs (estJoint dom vs par a R) x₀ A / massWith dom vs (estJoint dom vs par a R) x₀ B -
          massWith dom vs (truth vs par Q) x₀ A / massWith dom vs (truth vs par Q) x₀ B| ≤ ε := by
  obtain ⟨D, hD, hlow⟩ := exists_least_mass h x₀
  set W : ℝ := ((worlds dom vs x₀).length : ℝ) with hW
  have hW0 : 0 ≤ W := Nat.cast_nonneg _
  have hL0 : (0 : ℝ) ≤ vs.length := Nat.cast_nonneg _
  set κ : ℝ := min (D / 4) (ε * D / 8) with hκ
  have hκ0 : 0 < κ := lt_min (by positivity) (by positivity)
  refine ⟨κ / (W * vs.length + 1), by positivity, fun n R h1 A B _ _ hAB hB => ?_⟩
  have hJ := fun σ hσ => joints_close h (x₀ := x₀) hess hm (η := κ / (W * vs.length + 1)) (by positivity) (fun v hv z hz _ => h1 v hv z hz) (σ := σ) hσ
  have hM : ∀ (A : (V → S) → Prop) [DecidablePred A], |massWith dom vs (estJoint dom vs par a R) x₀ A - massWith dom vs (truth vs par Q) x₀ A| ≤ κ := by
    intro A _
    refine (massWith_near (by positivity) hJ A).trans ?_
    rw [← hW, mul_div_assoc', mul_div_assoc', div_le_iff₀ (by positivity)]
    nlinarith
  have hDB := hlow B hB
  have hκD : κ ≤ D / 4 := min_le_left _ _
  have hκε : κ ≤ ε * D / 8 := min_le_right _ _
  have hBc := hM B
  refine ⟨by have := (abs_le.1 hBc).1; linarith, ?_⟩
  have hq := ratio_close (b := 0) (k := 0) (C := massWith dom vs (truth vs par Q) x₀ A) (D := massWith dom vs (truth vs par Q) x₀ B)
    (q := massWith dom vs (truth vs par Q) x₀ A / massWith dom vs (truth vs par Q) x₀ B) (by field_simp) hB
    (div_nonneg (h.mass_nonneg _ _) hB.le) (div_le_one_of_le₀ (h.mass_mono _ hAB) hB.le) (hM A) hBc (by linarith) le_rfl le_rfl
  simp only [add_zero, mul_zero, zero_mul] at hq
  refine hq.trans ?_
  rw [div_le_iff₀ hB]
  nlinarith

end

end Verif.Consistent
