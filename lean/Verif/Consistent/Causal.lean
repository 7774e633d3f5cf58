import Verif.Consistent.Predict

/-!
# C135: causal effects estimated from enough rows are close to the true ones
-/

namespace Verif.Consistent

open Verif.BBN Function MeasureTheory ProbabilityTheory
open Verif.Network (FitArgs Net statesOf IsParentList IsConditional IsStructure GoodArgs Heap DF fitCpds cpds framesOf estimate observed)

section
set_option linter.unusedSectionVars false
variable {V S : Type} [LinearOrder V] [LinearOrder S] {dom : V → List S} {vs : List V} {par : V → List V} {Q : V → S → List S → ℝ}

/-- Specification: the conditional probabilities after the node `X` has been set to the distribution `d`: those of `X` are `d`, whatever its parents
are, all others are the same. -/
def intervened (Q : V → S → List S → ℝ) (X : V) (d : S → ℝ) : V → S → List S → ℝ := fun v s ps => if v = X then d s else Q v s ps

/-- Specification: every state to which the intervention gives a positive probability occurs together with all possible states of the parents. -/
def Overlap (dom : V → List S) (vs : List V) (par : V → List V) (Q : V → S → List S → ℝ) (x₀ : V → S) (X : V) (d : S → ℝ) : Prop :=
  ∀ z : V → S, (∀ u ∈ vs, z u ∈ dom u) → 0 < d (z X) →
    0 < massWith dom vs (truth vs par Q) x₀ (fun x => (par X).map x = (par X).map z) →
    0 < massWith dom vs (truth vs par Q) x₀ (fun x => x X = z X ∧ (par X).map x = (par X).map z)

theorem IsModel.intervened (h : IsModel dom vs par Q) {X : V} {d : S → ℝ} (hd0 : ∀ s ∈ dom X, 0 ≤ d s) (hd1 : ((dom X).map d).sum = 1) :
    IsModel dom vs par (intervened Q X d) := by
  refine ⟨h.nodup, h.states, h.parents, h.parents_nodup, h.acyclic, fun v hv ps hps s hs => ?_, fun v hv ps hps => ?_⟩
  · unfold Consistent.intervened
    by_cases e : v = X
    · subst e
      rw [if_pos rfl]
      exact hd0 s hs
    · rw [if_neg e]
      exact h.nonneg v hv ps hps s hs
  · unfold Consistent.intervened
    by_cases e : v = X
    · subst e
      simpa using hd1
    · simpa [e] using h.sum v hv ps hps

/-- The overlap condition holds if no conditional probability of the node is zero. -/
theorem IsModel.overlap (h : IsModel dom vs par Q) {x₀ : V → S} (hx₀ : ∀ v ∈ vs, x₀ v ∈ dom v) {X : V} (hX : X ∈ vs) (d : S → ℝ)
    (hpos : ∀ ps, List.Forall₂ (fun s p => s ∈ dom p) ps (par X) → ∀ s ∈ dom X, 0 < Q X s ps) : Overlap dom vs par Q x₀ X d := by
  intro z hz _ hm
  rw [h.conditional hX (hz X hX) hx₀]
  exact mul_pos (hpos _ (h.config fun p hp => hz p (h.parents X hX p hp)) _ (hz X hX)) hm

/-- The probability of an assignment according to the estimates, after the intervention. -/
noncomputable def estJointDo {n : ℕ} (dom : V → List S) (vs : List V) (par : V → List V) (a : FitArgs ℝ) (R : Fin n → V → S) (X : V) (d : S → ℝ)
    (x : V → S) : ℝ :=
  (vs.map fun v => if v = X then d (x v) else
    estimate a (dom v) ((par v).map fun p => (dom p).length).prod (famCount par R v ((par v).map x)) (x v)).prod

theorem joints_close_do (h : IsModel dom vs par Q) {x₀ : V → S} (hx₀ : ∀ v ∈ vs, x₀ v ∈ dom v) {a : FitArgs ℝ} (hess : ∀ n, a.ess = some n → 0 < n)
    (hm : a.method = "MaximumLikelihoodEstimator" ∨ a.prior = some "K2" ∨ a.ess ≠ none) {X : V} {d : S → ℝ} (hX : X ∈ vs)
    (hd0 : ∀ s ∈ dom X, 0 ≤ d s) (hd1 : ((dom X).map d).sum = 1)
    (hov : Overlap dom vs par Q x₀ X d) {η : ℝ} (hη : 0 ≤ η) {n : ℕ} {R : Fin n → V → S}
    (hest : ∀ v ∈ vs, ∀ z : V → S, (∀ u ∈ vs, z u ∈ dom u) → 0 < massWith dom vs (truth vs par Q) x₀ (fun x => (par v).map x = (par v).map z) →
        ∀ s ∈ dom v, |estimate a (dom v) ((par v).map fun p => (dom p).length).prod (famCount par R v ((par v).map z)) s -
          Q v s ((par v).map z)| ≤ η) {σ : V → S} (hσ : σ ∈ worlds dom vs x₀) :
    |estJointDo dom vs par a R X d σ - truth vs par (intervened Q X d) σ| ≤ vs.length * η := by
  have hv : ∀ v ∈ vs, σ v ∈ dom v := fun v hv => (worlds_valid hσ v).1 hv
  have hI := h.intervened hd0 hd1
  have hcfg : ∀ v ∈ vs, List.Forall₂ (fun s p => s ∈ dom p) ((par v).map σ) (par v) := fun v hv' =>
    h.config fun p hp => hv p (h.parents v hv' p hp)
  have hcfgs : ∀ v ∈ vs, 0 < ((par v).map fun p => (dom p).length).prod := by
    intro v hv'
    refine List.prod_pos fun y hy => ?_
    obtain ⟨p, hp, rfl⟩ := List.mem_map.1 hy
    exact List.length_pos_of_mem (hv p (h.parents v hv' p hp))
  have hQ : ∀ v ∈ vs, 0 ≤ intervened Q X d v (σ v) ((par v).map σ) ∧ intervened Q X d v (σ v) ((par v).map σ) ≤ 1 := fun v hv' =>
    ⟨hI.nonneg v hv' _ (hcfg v hv') _ (hv v hv'), hI.le_one hv' (hcfg v hv') (hv v hv')⟩
  have hE : ∀ v ∈ vs, 0 ≤ (if v = X then d (σ v) else
      estimate a (dom v) ((par v).map fun p => (dom p).length).prod (famCount par R v ((par v).map σ)) (σ v)) ∧
      (if v = X then d (σ v) else
        estimate a (dom v) ((par v).map fun p => (dom p).length).prod (famCount par R v ((par v).map σ)) (σ v)) ≤ 1 := by
    intro v hv'
    by_cases e : v = X
    · have := hQ v hv'
      unfold intervened at this
      rw [if_pos e] at this ⊢
      exact this
    · rw [if_neg e]
      exact estimate_unit hess hm (hcfgs v hv') _ (hv v hv')
  by_cases hall : ∀ v ∈ vs, v ≠ X → 0 < massWith dom vs (truth vs par Q) x₀ (fun x => (par v).map x = (par v).map σ)
  · refine (prod_close hE hQ fun v hv' => ?_).1
    unfold intervened
    by_cases e : v = X
    · rw [if_pos e, if_pos e, sub_self, abs_zero]
      exact hη
    · rw [if_neg e, if_neg e]
      exact hest v hv' σ hv (hall v hv' e) _ (hv v hv')
  · push Not at hall
    obtain ⟨v, hv', -, h0⟩ := hall
    have h1 : massWith dom vs (truth vs par Q) x₀ (fun x => (par v).map x = (par v).map σ) = 0 := le_antisymm h0 (h.mass_nonneg _ _)
    rw [← massWith_world hσ] at h1
    obtain ⟨u, hu, hup, hu0⟩ := h.impossible hv hv' h1
    rw [massWith_world hσ] at hup
    have h5 : (1 : ℝ) ≤ vs.length := by
      exact_mod_cast List.length_pos_of_mem hu
    by_cases e : u = X
    · subst e
      have hd : d (σ u) = 0 := by
        refine le_antisymm (not_lt.1 fun hpos => ?_) (hd0 _ (hv u hu))
        have h2 := hov σ hv hpos hup
        rw [h.conditional hu (hv u hu) hx₀, hu0, zero_mul] at h2
        exact lt_irrefl _ h2
      have h3 : estJointDo dom vs par a R u d σ = 0 := List.prod_eq_zero (List.mem_map.2 ⟨u, hu, by rw [if_pos rfl]; exact hd⟩)
      have h4 : truth vs par (intervened Q u d) σ = 0 :=
        List.prod_eq_zero (List.mem_map.2 ⟨u, hu, by unfold intervened; rw [if_pos rfl]; exact hd⟩)
      rw [h3, h4, sub_self, abs_zero]
      positivity
    · have h2 := hest u hu σ hv hup _ (hv u hu)
      have hEu := (hE u hu).1
      have h3 := prod_le_factor hE hu
      rw [if_neg e] at hEu h3
      rw [hu0, sub_zero, abs_of_nonneg hEu] at h2
      have h4 : truth vs par (intervened Q X d) σ = 0 :=
        List.prod_eq_zero (List.mem_map.2 ⟨u, hu, by unfold intervened; rw [if_neg e]; exact hu0⟩)
      rw [h4, sub_zero]
      change |(vs.map fun v => _).prod| ≤ _
      rw [abs_of_nonneg h3.1]
      refine (h3.2.2.trans h2).trans ?_
      nlinarith

/-- With sufficiently many rows among which every assignment has nearly its probability, all conditional probabilities after the intervention that
are computed from the estimates are close to the true ones. -/
theorem effects_close (h : IsModel dom vs par Q) {x₀ : V → S} (hx₀ : ∀ v ∈ vs, x₀ v ∈ dom v) {a : FitArgs ℝ}
    (hess : ∀ n, a.ess = some n → 0 < n) (hm : a.method = "MaximumLikelihoodEstimator" ∨ a.prior = some "K2" ∨ a.ess ≠ none)
    {X : V} {d : S → ℝ} (hX : X ∈ vs) (hd0 : ∀ s ∈ dom X, 0 ≤ d s) (hd1 : ((dom X).map d).sum = 1) (hov : Overlap dom vs par Q x₀ X d)
    {ε : ℝ} (hε : 0 < ε) : ∃ δ, 0 < δ ∧ ∃ n₀ : ℕ, 0 < n₀ ∧ ∀ n, n₀ ≤ n → ∀ R : Fin n → V → S,
      (∀ i, ∀ v ∈ vs, R i v ∈ dom v) → (∀ σ ∈ worlds dom vs x₀, |(cell vs R σ : ℝ) / n - truth vs par Q σ| ≤ δ) →
      ∀ (A B : (V → S) → Prop) [DecidablePred A] [DecidablePred B], (∀ x, A x → B x) →
        0 < massWith dom vs (truth vs par (intervened Q X d)) x₀ B →
        0 < massWith dom vs (estJointDo dom vs par a R X d) x₀ B ∧
        |massWith dom vs (estJointDo dom vs par a R X d) x₀ A / massWith dom vs (estJointDo dom vs par a R X d) x₀ B -
          massWith dom vs (truth vs par (intervened Q X d)) x₀ A / massWith dom vs (truth vs par (intervened Q X d)) x₀ B| ≤ ε := by
  have hI := h.intervened hd0 hd1
  obtain ⟨D, hD, hlow⟩ := exists_least_mass hI x₀
  set W : ℝ := ((worlds dom vs x₀).length : ℝ) with hW
  have hW0 : 0 ≤ W := Nat.cast_nonneg _
  have hL0 : (0 : ℝ) ≤ vs.length := Nat.cast_nonneg _
  set κ : ℝ := min (D / 4) (ε * D / 8) with hκ
  have hκ0 : 0 < κ := lt_min (by positivity) (by positivity)
  set η : ℝ := κ / (W * vs.length + 1) with hη
  have hη0 : 0 < η := by positivity
  obtain ⟨δ, hδ, n₀, hn₀, hest⟩ := estimates_close h hx₀ hess hη0
  refine ⟨δ, hδ, n₀, hn₀, fun n hn R hR hcell A B _ _ hAB hB => ?_⟩
  have h1 := hest n hn R hR hcell
  have hJ := fun σ hσ => joints_close_do h (x₀ := x₀) hx₀ hess hm hX hd0 hd1 hov hη0.le h1 (σ := σ) hσ
  have hM : ∀ (A : (V → S) → Prop) [DecidablePred A],
      |massWith dom vs (estJointDo dom vs par a R X d) x₀ A - massWith dom vs (truth vs par (intervened Q X d)) x₀ A| ≤ κ := by
    intro A _
    refine (massWith_near (by positivity) hJ A).trans ?_
    have h2 : η ≤ κ / (W * vs.length + 1) := le_rfl
    rw [le_div_iff₀ (by positivity)] at h2
    rw [← hW]
    nlinarith
  have hDB := hlow B hB
  have hκD : κ ≤ D / 4 := min_le_left _ _
  have hκε : κ ≤ ε * D / 8 := min_le_right _ _
  have hBc := hM B
  refine ⟨by have := (abs_le.1 hBc).1; linarith, ?_⟩
  have hq := ratio_close (b := 0) (k := 0) (C := massWith dom vs (truth vs par (intervened Q X d)) x₀ A)
    (D := massWith dom vs (truth vs par (intervened Q X d)) x₀ B)
    (q := massWith dom vs (truth vs par (intervened Q X d)) x₀ A / massWith dom vs (truth vs par (intervened Q X d)) x₀ B) (by field_simp) hB
    (div_nonneg (hI.mass_nonneg _ _) hB.le) (div_le_one_of_le₀ (hI.mass_mono _ hAB) hB.le) (hM A) hBc (by linarith) le_rfl le_rfl
  simp only [add_zero, mul_zero, zero_mul] at hq
  refine hq.trans ?_
  rw [div_le_iff₀ hB]
  nlinarith

/-- Rows in which every assignment has nearly its probability give answers after interventions that are close to the effects. -/
theorem intervention_close {int : ℕ → S} (hint : Injective int) {ns : List V} {E : List (V × V)} (hE : IsStructure ns E)
    {net : Net V S ℝ} (hr : Verif.Network.Reach int ns E net) {x₀ : V → S} (hx₀ : ∀ v ∈ net.nodes, x₀ v ∈ statesOf net v)
    {par : V → List V} (hpar : ∀ v ∈ net.nodes, IsParentList E v (par v)) {Q : V → S → List S → ℝ} (hQ : IsConditional net par Q)
    {a : FitArgs ℝ} (ha : GoodArgs a) (hess : ∀ n, a.ess = some n → 0 < n)
    {X : V} (hX : ∃ y, (X, y) ∈ E) {d : Dist S ℝ} (hd : d.IsDist (statesOf net X).toFinset)
    (hov : Overlap (statesOf net) net.nodes par Q x₀ X d.val) {ε : ℝ} (hε : 0 < ε) :
    ∃ δ : ℝ, 0 < δ ∧ ∃ n₀ : ℕ, ∀ n, n₀ ≤ n → ∀ R : Fin n → V → S, (∀ i, ∀ v ∈ net.nodes, R i v ∈ statesOf net v) →
      (∀ σ ∈ worlds (statesOf net) net.nodes x₀, |(cell net.nodes R σ : ℝ) / n - truth net.nodes par Q σ| ≤ δ) →
      ∀ (h : Heap V S) (ref : ℕ) (df : DF V S), h[ref]? = some df → RowsAre net.nodes df R →
      ∀ (nd : Nondet V), nd.Legal → ∀ (okName : V → Bool), (∀ v ∈ net.nodes, okName v = true) →
      ∃ net' h' tables e e', fitCpds int net h ref a = (net', h', .ok ()) ∧ cpds net' = .ok tables ∧
        Engine.create okName (framesOf tables) = .ok e ∧ e.doIntervention X (.dist d) = (e', .ok ()) ∧
        ((∃ out, e'.query nd [] = .ok out) →
          ∀ ev : List (V × S), (ev.map Prod.fst).Nodup → (∀ q ∈ ev, q.1 ∈ net.nodes ∧ q.2 ∈ statesOf net q.1) →
            0 < massWith (statesOf net) net.nodes (truth net.nodes par (intervened Q X d.val)) x₀ (Agrees ev) →
            ∃ out, e'.query nd ev = .ok out ∧ ReportsWithin ε (statesOf net) net.nodes (fun v s =>
              massWith (statesOf net) net.nodes (truth net.nodes par (intervened Q X d.val)) x₀ (fun x => Agrees ev x ∧ x v = s) /
                massWith (statesOf net) net.nodes (truth net.nodes par (intervened Q X d.val)) x₀ (Agrees ev)) out) := by
  have hw := hr.wf hE
  have hne : ∀ v ∈ net.nodes, statesOf net v ≠ [] := fun v hv => List.ne_nil_of_mem (hx₀ v hv)
  obtain ⟨y, hXy⟩ := hX
  have hEne : E ≠ [] := List.ne_nil_of_mem hXy
  have hXn : X ∈ net.nodes := by
    rw [hw.nodes]
    exact Verif.Network.mem_nodesOfEdges.2 ⟨_, hXy, Or.inl rfl⟩
  have hyn : y ∈ net.nodes := by
    rw [hw.nodes]
    exact Verif.Network.mem_nodesOfEdges.2 ⟨_, hXy, Or.inr rfl⟩
  obtain ⟨states, hst⟩ : ∃ states, net.states = some states := by
    cases hst : net.states with
    | none => exact absurd (by rw [statesOf, hst]) (hne _ hXn)
    | some states => exact ⟨states, rfl⟩
  have hdn : ∀ v, (statesOf net v).Nodup := by
    intro v
    rw [Verif.Network.statesOf_eq hst]
    exact Verif.Network.keysOf_nodup (hw.encWF hst) v
  have hM := isModel_of hE hr hdn hpar hQ
  have hm : a.method = "MaximumLikelihoodEstimator" ∨ a.prior = some "K2" ∨ a.ess ≠ none := by
    rcases ha with h1 | ⟨-, h1 | ⟨-, h1⟩⟩
    · exact Or.inl h1
    · exact Or.inr (Or.inl h1)
    · exact Or.inr (Or.inr h1)
  have hd0 : ∀ s ∈ statesOf net X, 0 ≤ d.val s := fun s hs => hd.nonneg s (by rw [hd.keys]; exact List.mem_toFinset.2 hs)
  have hd1 : ((statesOf net X).map d.val).sum = 1 := by
    rw [← hd.sum, hd.keys, List.sum_toFinset _ (hdn X)]
  obtain ⟨δ, hδ, n₁, -, hclose⟩ := effects_close hM hx₀ hess hm hXn hd0 hd1 hov hε
  refine ⟨δ, hδ, n₁, fun n hn R hR hgood h ref df hdf hrows nd hnd okName hokn => ?_⟩
  have hcl := hclose n hn R hR hgood
  have hok := (Verif.Network.fit_ok_iff hE hr hdf a).2 ⟨by rw [hst]; simp, hrows.1, ha⟩
  obtain ⟨net', h', res, hf⟩ : ∃ net' h' res, fitCpds int net h ref a = (net', h', res) := ⟨_, _, _, rfl⟩
  rw [hf] at hok
  simp only at hok
  subst hok
  obtain ⟨-, -, -, tables, t1, t2, t3⟩ := Verif.Network.fit_cpds_correct hint hE hr hne hdf hf
  obtain ⟨tables', t1', -, hfit⟩ := Verif.Network.fitted_is_network hint hE hEne hr hne hess hf
  rw [t1] at t1'
  cases t1'
  obtain ⟨hdom, -⟩ := Verif.Network.massOf_framesOf hint hE hr hne hdf hf hpar t1
  have hbn : (framesOf tables).map Prod.fst = net.nodes := by
    rw [← t2, framesOf, List.map_map]; rfl
  have hvars : (cpdsOf (framesOf tables)).map Prod.fst = net.nodes := by
    rw [cpdsOf_vars, hbn]
  obtain ⟨e, he, hinv, hcp⟩ := Engine.create_ok hfit (okName := okName) (by
    intro q hq
    apply hokn
    rw [← hbn]
    exact List.mem_map_of_mem hq)
  -- the intervention is accepted
  obtain ⟨e', hdo, hinv', hcp'⟩ : ∃ e', e.doIntervention X (.dist d) = (e', .ok ()) ∧ e'.Inv (framesOf tables) ∧
      e'.cpds = setCpd e.cpds X (interventionCpd V d) := by
    rcases hinv.do_cases hfit X (.dist d) with ⟨err, -, -, hno⟩ | ⟨d', c, e', hd', -, -, -, h1, h2, h3⟩
    · exfalso
      apply hno
      have hmem : X ∈ e.orig.map Prod.fst := by rw [hinv.orig_eq, hvars]; exact hXn
      obtain ⟨c, hc⟩ := (lookup_isSome_iff _ _).2 hmem
      refine ⟨?_, d, c, rfl, hc, ?_⟩
      · rw [IsParent, hcp]
        obtain ⟨⟨y', t⟩, ht, e₁⟩ := List.mem_map.1 (t2 ▸ hyn)
        cases e₁
        refine ⟨_, List.mem_map_of_mem (List.mem_map.2 ⟨(y', t), ht, rfl⟩), ?_⟩
        exact ((t3 y' t ht).2.1.2 X).2 hXy
      · rw [orig_states (by rw [hbn, hw.nodes]; exact Verif.Network.nodesOfEdges_nodup E) (hinv.orig_eq ▸ lookup_mem hc), hdom X hXn]
        exact hd
    · cases hd'
      exact ⟨e', h1, h2, h3⟩
  refine ⟨net', h', tables, e, e', hf, t1, he, hdo, ?_⟩
  rintro ⟨out₀, ho₀⟩ ev hk hev hpos
  have hconn : Connected (netNodes e'.cpds) := by
    by_contra hc
    obtain ⟨err, herr⟩ := hinv'.query_disconnected hnd hfit hc []
    rw [ho₀] at herr
    cases herr
  have hvars' : e'.cpds.map Prod.fst = net.nodes := by rw [hinv'.vars, hbn]
  -- probabilities after the intervention
  have hmass : ∀ (A : (V → S) → Prop) [DecidablePred A], massOf e'.dom (netNodes e'.cpds) x₀ A =
      massWith (statesOf net) net.nodes (estJointDo (statesOf net) net.nodes par a R X d.val) x₀ A := by
    intro A _
    unfold massOf massWith
    rw [netNodes_vars, hvars', hinv'.dom_eq, Verif.Network.worlds_congr hdom]
    congr 1
    apply List.map_congr_left
    intro x hx
    have hx' := worlds_valid (List.mem_filter.1 hx).1
    rw [hcp', hcp]
    unfold joint estJointDo
    rw [← t2, netNodes, setCpd, cpdsOf, framesOf, List.map_map, List.map_map, List.map_map, List.map_map, List.map_map]
    congr 1
    apply List.map_congr_left
    rintro ⟨v, t⟩ ht
    have hv : v ∈ net.nodes := by rw [← t2]; exact List.mem_map_of_mem ht
    have hpl := Verif.Network.parentList_unique (t3 v t ht).2.1 (hpar v hv)
    by_cases hvX : v = X
    · simp only [comp, hvX, if_true]
      change (if x X ∈ d.keys then d.val (x X) else 0) = _
      rw [if_pos]
      rw [hd.keys, List.mem_toFinset]
      exact (hx' X).1 hXn
    · simp only [comp, hvX, if_false]
      change (t.entry (x v) (t.parents.map x)).getD 0 = _
      rw [(t3 v t ht).2.2.2.2 (x v) ((hx' v).1 hv) (t.parents.map x), Option.getD_some, hpl]
      · simp only [observed_rows hR hrows hv (hM.parents v hv)]
      · rw [Verif.Network.IsConfig, List.forall₂_map_left_iff, List.forall₂_same, hpl]
        intro q hq
        exact (hx' q).1 (hM.parents v hv q hq)
  have h0 := (hcl (Agrees ev) (Agrees ev) (fun _ h => h) hpos).1
  rw [← hmass] at h0
  obtain ⟨out, ho, hrep⟩ := hinv'.query_reports hnd hfit hconn (x₀ := x₀) (ev := ev) (by
      rw [hvars', hinv'.dom_eq]
      intro v hv
      rw [hdom v hv]
      exact hx₀ v hv) hk (by
      intro q hq
      rw [netNodes_vars, hvars', hinv'.dom_eq, hdom _ (hev q hq).1]
      exact hev q hq) h0
  refine ⟨out, ho, by rw [hrep.vars, hvars'], fun q hq => ?_, fun q hq r hrq => ?_⟩
  · rw [← hdom q.1 (by rw [← hvars', ← hrep.vars]; exact List.mem_map_of_mem hq), ← hinv'.dom_eq]
    exact hrep.states q hq
  · rw [hrep.probs q hq r hrq, hmass, hmass]
    exact (hcl (fun x => Agrees ev x ∧ x q.1 = r.1) (Agrees ev) (fun _ h => h.1) hpos).2

/-- **C135**: after fitting to sufficiently many independent rows of a distribution with the structure of the network, an intervention on a node with
children is accepted, and (unless it leaves the network in pieces, so that no query works) the answers after it are close to the probabilities of
the distribution in which the conditional distribution of the node is replaced by that of the intervention, provided the states it is set to occur
together with all possible states of its parents. -/
theorem effects_consistent {int : ℕ → S} (hint : Injective int) {ns : List V} {E : List (V × V)} (hE : IsStructure ns E)
    {net : Net V S ℝ} (hr : Verif.Network.Reach int ns E net) {x₀ : V → S} (hx₀ : ∀ v ∈ net.nodes, x₀ v ∈ statesOf net v)
    {par : V → List V} (hpar : ∀ v ∈ net.nodes, IsParentList E v (par v)) {Q : V → S → List S → ℝ} (hQ : IsConditional net par Q)
    {a : FitArgs ℝ} (ha : GoodArgs a) (hess : ∀ n, a.ess = some n → 0 < n)
    {X : V} (hX : ∃ y, (X, y) ∈ E) {d : Dist S ℝ} (hd : d.IsDist (statesOf net X).toFinset)
    (hov : Overlap (statesOf net) net.nodes par Q x₀ X d.val) {ε p : ℝ} (hε : 0 < ε) (hp : 0 < p) :
    ∃ n₀ : ℕ, ∀ n, n₀ ≤ n → ∀ {Ω : Type} [MeasurableSpace Ω] (P : Measure Ω) [IsProbabilityMeasure P] (R : Fin n → Ω → V → S),
      RowsFrom P (statesOf net) net.nodes par Q R →
      ∃ G : Set Ω, MeasurableSet G ∧ 1 - ENNReal.ofReal p ≤ P G ∧
      ∀ ω ∈ G, ∀ (h : Heap V S) (ref : ℕ) (df : DF V S), h[ref]? = some df → RowsAre net.nodes df (fun i => R i ω) →
      ∀ (nd : Nondet V), nd.Legal → ∀ (okName : V → Bool), (∀ v ∈ net.nodes, okName v = true) →
      ∃ net' h' tables e e', fitCpds int net h ref a = (net', h', .ok ()) ∧ cpds net' = .ok tables ∧
        Engine.create okName (framesOf tables) = .ok e ∧ e.doIntervention X (.dist d) = (e', .ok ()) ∧
        ((∃ out, e'.query nd [] = .ok out) →
          ∀ ev : List (V × S), (ev.map Prod.fst).Nodup → (∀ q ∈ ev, q.1 ∈ net.nodes ∧ q.2 ∈ statesOf net q.1) →
            0 < massWith (statesOf net) net.nodes (truth net.nodes par (intervened Q X d.val)) x₀ (Agrees ev) →
            ∃ out, e'.query nd ev = .ok out ∧ ReportsWithin ε (statesOf net) net.nodes (fun v s =>
              massWith (statesOf net) net.nodes (truth net.nodes par (intervened Q X d.val)) x₀ (fun x => Agrees ev x ∧ x v = s) /
                massWith (statesOf net) net.nodes (truth net.nodes par (intervened Q X d.val)) x₀ (Agrees ev)) out) := by
  obtain ⟨δ, hδ, n₁, hclose⟩ := intervention_close hint hE hr hx₀ hpar hQ ha hess hX hd hov hε
  obtain ⟨n₀, hn₀, hrc⟩ := rows_close (isModel_of hE hr (states_nodup hE hr) hpar hQ) x₀ hδ hp n₁
  refine ⟨n₀, fun n hn Ω _ P _ R hR => ?_⟩
  obtain ⟨G, hG, hPG, hgood⟩ := hrc n hn P R hR
  exact ⟨G, hG, hPG, fun ω hω => hclose n (hn₀.trans hn) _ (hgood ω hω).1 (hgood ω hω).2⟩

end

end Verif.Consistent
