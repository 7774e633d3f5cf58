import Verif.Consistent.AnyLawProps
import Mathlib.Analysis.SpecialFunctions.Log.Basic

/-!
# C155: the limit network is the best network with the structure
-/

namespace Verif.Consistent

open Verif.BBN Function MeasureTheory
open Verif.Network (Net IsStructure IsParentList IsConditional statesOf)

section
set_option linter.unusedSectionVars false
variable {V S : Type} [LinearOrder V] [LinearOrder S] {dom : V → List S} {vs : List V} {par : V → List V} {Q Q' : V → S → List S → ℝ}

theorem massWith_factor {J : (V → S) → ℝ} {x₀ : V → S} (A : (V → S) → Prop) [DecidablePred A] (f : (V → S) → ℝ) (q : ℝ) (hf : ∀ x, A x → f x = q) :
    massWith dom vs (fun x => J x * f x) x₀ A = massWith dom vs J x₀ A * q := by
  unfold massWith
  rw [← List.sum_map_mul_right]
  refine congrArg List.sum (List.map_congr_left fun x hx => ?_)
  rw [hf x (by simpa using (List.mem_filter.1 hx).2)]

theorem massWith_keys (us : List V) (J : (V → S) → ℝ) (x₀ : V → S) :
    ((worlds dom vs x₀).map J).sum = ((((worlds dom vs x₀).map fun x => us.map x).dedup).map fun c => massWith dom vs J x₀ (fun x => us.map x = c)).sum := by
  unfold massWith
  exact sum_filter_key _ (fun x => us.map x) J _ (List.nodup_dedup _) fun x hx => List.mem_dedup.2 (List.mem_map_of_mem hx)

/-- The expected quotient of two conditional probabilities is at most one. -/
theorem quotient_le (h : IsModel dom vs par Q) (h' : IsModel dom vs par Q') {J : (V → S) → ℝ} {x₀ : V → S} (hJ : IsLimit dom vs par Q J x₀)
    {v : V} (hv : v ∈ vs) :
    ((worlds dom vs x₀).map fun σ => J σ * (Q' v (σ v) ((par v).map σ) / Q v (σ v) ((par v).map σ))).sum ≤ ((worlds dom vs x₀).map J).sum := by
  rw [massWith_keys (par v) J, massWith_keys (par v)]
  refine List.sum_le_sum fun c hc => ?_
  obtain ⟨z, hz, rfl⟩ := List.mem_map.1 (List.mem_dedup.1 hc)
  have hzv : ∀ u ∈ vs, z u ∈ dom u := fun u hu => (worlds_valid hz u).1 hu
  have hcfg : List.Forall₂ (fun s p => s ∈ dom p) ((par v).map z) (par v) := h.config fun p hp => hzv p (h.parents v hv p hp)
  have hM : 0 ≤ massWith dom vs J x₀ (fun x => (par v).map x = (par v).map z) := mass_nonneg_of hJ.nonneg _
  rw [massWith_split hv (h.states v hv)]
  calc ((dom v).map fun s => massWith dom vs (fun σ => J σ * (Q' v (σ v) ((par v).map σ) / Q v (σ v) ((par v).map σ))) x₀
          (fun y => (par v).map y = (par v).map z ∧ y v = s)).sum
      ≤ ((dom v).map fun s => Q' v s ((par v).map z) * massWith dom vs J x₀ (fun x => (par v).map x = (par v).map z)).sum := by
        refine List.sum_le_sum fun s hs => ?_
        rw [massWith_factor _ (fun σ => Q' v (σ v) ((par v).map σ) / Q v (σ v) ((par v).map σ)) (Q' v s ((par v).map z) / Q v s ((par v).map z))
          fun x hx => by rw [hx.1, hx.2]]
        rw [massWith_congr (B := fun x => x v = s ∧ (par v).map x = (par v).map z) fun x => and_comm, hJ.cond v hv z hzv s hs]
        have hq' := h'.nonneg v hv _ hcfg s hs
        rcases eq_or_ne (Q v s ((par v).map z)) 0 with h0 | h0
        · rw [h0]
          simp only [zero_mul, div_zero]
          exact mul_nonneg hq' hM
        · exact le_of_eq (by field_simp)
    _ = massWith dom vs J x₀ (fun x => (par v).map x = (par v).map z) := by
        rw [List.sum_map_mul_right, h'.sum v hv _ hcfg, one_mul]

/-- Among all networks with the structure, the limit network gives the rows the greatest expected log-likelihood. -/
theorem limit_best (h : IsModel dom vs par Q) (h' : IsModel dom vs par Q') {J : (V → S) → ℝ} {x₀ : V → S} (hJ : IsLimit dom vs par Q J x₀)
    (hpos : ∀ σ ∈ worlds dom vs x₀, 0 < J σ → 0 < truth vs par Q' σ) :
    ((worlds dom vs x₀).map fun σ => J σ * Real.log (truth vs par Q' σ)).sum ≤
      ((worlds dom vs x₀).map fun σ => J σ * Real.log (truth vs par Q σ)).sum := by
  have hterm : ∀ σ ∈ worlds dom vs x₀, J σ * Real.log (truth vs par Q' σ) - J σ * Real.log (truth vs par Q σ) ≤
      (vs.map fun v => J σ * (Q' v (σ v) ((par v).map σ) / Q v (σ v) ((par v).map σ)) - J σ).sum := by
    intro σ hσ
    have hσv : ∀ u ∈ vs, σ u ∈ dom u := fun u hu => (worlds_valid hσ u).1 hu
    have hcfg : ∀ v ∈ vs, List.Forall₂ (fun s p => s ∈ dom p) ((par v).map σ) (par v) := fun v hv => h.config fun p hp => hσv p (h.parents v hv p hp)
    rcases (hJ.nonneg σ hσ).eq_or_lt with h0 | h0
    · rw [← h0]
      simp
    have hq' : ∀ v ∈ vs, 0 < Q' v (σ v) ((par v).map σ) := by
      intro v hv
      refine lt_of_le_of_ne (h'.nonneg v hv _ (hcfg v hv) _ (hσv v hv)) fun e => (hpos σ hσ h0).ne' ?_
      exact List.prod_eq_zero (List.mem_map.2 ⟨v, hv, e.symm⟩)
    have hq : ∀ v ∈ vs, 0 < Q v (σ v) ((par v).map σ) := by
      intro v hv
      have h1 := hJ.cond v hv σ hσv _ (hσv v hv)
      have h2 : J σ ≤ massWith dom vs J x₀ (fun x => x v = σ v ∧ (par v).map x = (par v).map σ) := by
        unfold massWith
        refine List.single_le_sum ?_ _ (List.mem_map_of_mem (List.mem_filter.2 ⟨hσ, by simp⟩))
        intro y hy
        obtain ⟨x, hx, rfl⟩ := List.mem_map.1 hy
        exact hJ.nonneg x (List.mem_filter.1 hx).1
      refine lt_of_le_of_ne (h.nonneg v hv _ (hcfg v hv) _ (hσv v hv)) fun e => ?_
      rw [← e, zero_mul] at h1
      linarith
    have hlog : ∀ q : V → ℝ, (∀ v ∈ vs, 0 < q v) → Real.log ((vs.map q).prod) = (vs.map fun v => Real.log (q v)).sum := by
      intro q hq
      clear hq' hcfg hσv hσ h0
      generalize vs = l at hq
      induction l with
      | nil => simp
      | cons w l ih =>
        have h1 := hq w List.mem_cons_self
        have h2 : 0 < (l.map q).prod := List.prod_pos fun y hy => by
          obtain ⟨u, hu, rfl⟩ := List.mem_map.1 hy
          exact hq u (List.mem_cons_of_mem _ hu)
        rw [List.map_cons, List.prod_cons, Real.log_mul h1.ne' h2.ne', ih fun u hu => hq u (List.mem_cons_of_mem _ hu), List.map_cons, List.sum_cons]
    rw [truth, truth, hlog _ hq', hlog _ hq, ← List.sum_map_mul_left, ← List.sum_map_mul_left]
    have hsub : ∀ (l : List V) (f g : V → ℝ), (l.map f).sum - (l.map g).sum = (l.map fun v => f v - g v).sum := by
      intro l f g
      induction l with
      | nil => simp
      | cons w l ih =>
        simp only [List.map_cons, List.sum_cons]
        rw [← ih]
        ring
    rw [hsub]
    refine List.sum_le_sum fun v hv => ?_
    have h1 := Real.log_le_sub_one_of_pos (div_pos (hq' v hv) (hq v hv))
    rw [Real.log_div (hq' v hv).ne' (hq v hv).ne'] at h1
    nlinarith [mul_le_mul_of_nonneg_left h1 h0.le]
  have hsum := List.sum_le_sum hterm
  have hsub : ∀ (l : List (V → S)) (f g : (V → S) → ℝ), (l.map fun x => f x - g x).sum = (l.map f).sum - (l.map g).sum := by
    intro l f g
    induction l with
    | nil => simp
    | cons w l ih =>
      simp only [List.map_cons, List.sum_cons]
      rw [ih]
      ring
  have hswap : ∀ (l : List (V → S)) (ws : List V) (f : (V → S) → V → ℝ), (l.map fun x => (ws.map fun v => f x v).sum).sum =
      (ws.map fun v => (l.map fun x => f x v).sum).sum := by
    intro l ws f
    induction l with
    | nil => simp
    | cons w l ih =>
      simp only [List.map_cons, List.sum_cons]
      rw [ih, List.sum_map_add]
  rw [hsub, hswap] at hsum
  have hle : (vs.map fun v => ((worlds dom vs x₀).map fun σ => J σ * (Q' v (σ v) ((par v).map σ) / Q v (σ v) ((par v).map σ)) - J σ).sum).sum ≤ 0 := by
    refine (List.sum_le_sum (g := fun _ : V => (0 : ℝ)) fun v hv => ?_).trans (by simp)
    rw [hsub]
    have := quotient_le h h' hJ hv
    linarith
  linarith

/-- **C155**, the limit: among all networks with the structure, the network whose tables are the conditional probabilities has the greatest expected
log-likelihood of a row; of all distributions with the structure it is the closest to the distribution of the rows. -/
theorem limit_closest {int : ℕ → S} {ns : List V} {E : List (V × V)} (hE : IsStructure ns E) {net : Net V S ℝ} (hr : Verif.Network.Reach int ns E net)
    {x₀ : V → S} (hx₀ : ∀ v ∈ net.nodes, x₀ v ∈ statesOf net v) {par : V → List V} (hpar : ∀ v ∈ net.nodes, IsParentList E v (par v))
    {Ω : Type} [MeasurableSpace Ω] {P : Measure Ω} [IsProbabilityMeasure P] {R : ℕ → Ω → V → S} (hR : SameRows P (statesOf net) net.nodes R) :
    IsConditional net par (limitTable P R (statesOf net) par) ∧
    ∀ Q' : V → S → List S → ℝ, IsConditional net par Q' →
      (∀ σ ∈ worlds (statesOf net) net.nodes x₀, 0 < rowProb P R (fun x => ∀ v ∈ net.nodes, x v = σ v) → 0 < truth net.nodes par Q' σ) →
      ((worlds (statesOf net) net.nodes x₀).map fun σ =>
          rowProb P R (fun x => ∀ v ∈ net.nodes, x v = σ v) * Real.log (truth net.nodes par Q' σ)).sum ≤
        ((worlds (statesOf net) net.nodes x₀).map fun σ =>
          rowProb P R (fun x => ∀ v ∈ net.nodes, x v = σ v) * Real.log (truth net.nodes par (limitTable P R (statesOf net) par) σ)).sum := by
  have hC := limit_conditional hE hr hx₀ hpar hR
  refine ⟨hC, fun Q' hQ' hpos => ?_⟩
  have hM := isModel_of hE hr (states_nodup hE hr) hpar hC
  exact limit_best hM (isModel_of hE hr (states_nodup hE hr) hpar hQ') (isLimit hR hM.nodup hM.states hM.parents x₀) hpos

end

end Verif.Consistent
