import Verif.Consistent.Stream
import Verif.Network.FitDo

/-!
# C150: the effects of several interventions, from enough data
-/

namespace Verif.Consistent

open Verif.BBN Function MeasureTheory ProbabilityTheory
open Verif.Network (FitArgs Net statesOf IsParentList IsConditional IsStructure GoodArgs Heap DF fitCpds cpds framesOf estimate observed Acts inForce Left)

section
set_option linter.unusedSectionVars false
variable {V S : Type} [LinearOrder V] [LinearOrder S] {dom : V → List S} {vs : List V} {par : V → List V} {Q : V → S → List S → ℝ}

/-- Specification: the conditional probabilities after some nodes have been set to distributions: those of the nodes that are set do not depend on the
parents any more, all others are the same. -/
def setTo (Q : V → S → List S → ℝ) (I : V → Option (Dist S ℝ)) : V → S → List S → ℝ := fun v s ps => match I v with
  | some d => d.val s
  | none => Q v s ps

/-- Specification: for a node that is not set, states of the parents that are possible after the interventions are possible without them. -/
def Overlaps (dom : V → List S) (vs : List V) (par : V → List V) (Q : V → S → List S → ℝ) (x₀ : V → S) (I : V → Option (Dist S ℝ)) : Prop :=
  ∀ v ∈ vs, I v = none → ∀ z : V → S, (∀ u ∈ vs, z u ∈ dom u) →
    0 < massWith dom vs (truth vs par (setTo Q I)) x₀ (fun x => (par v).map x = (par v).map z) →
    0 < massWith dom vs (truth vs par Q) x₀ (fun x => (par v).map x = (par v).map z)

variable {I : V → Option (Dist S ℝ)}

theorem IsModel.setTo (h : IsModel dom vs par Q) (hI : ∀ v ∈ vs, ∀ d, I v = some d → d.IsDist (dom v).toFinset) :
    IsModel dom vs par (setTo Q I) := by
  refine ⟨h.nodup, h.states, h.parents, h.parents_nodup, h.acyclic, fun v hv ps hps s hs => ?_, fun v hv ps hps => ?_⟩
  · unfold Consistent.setTo
    cases e : I v with
    | some d =>
      have hd := hI v hv d e
      exact hd.nonneg s (by rw [hd.keys]; exact List.mem_toFinset.2 hs)
    | none => exact h.nonneg v hv ps hps s hs
  · unfold Consistent.setTo
    cases e : I v with
    | some d =>
      have hd := hI v hv d e
      rw [← hd.sum, hd.keys, List.sum_toFinset _ (h.states v hv)]
    | none => exact h.sum v hv ps hps

/-- If no conditional probability is zero, all interventions have overlap. -/
theorem IsModel.overlaps (h : IsModel dom vs par Q) {x₀ : V → S} (hx₀ : ∀ v ∈ vs, x₀ v ∈ dom v) (I : V → Option (Dist S ℝ))
    (hpos : ∀ v ∈ vs, ∀ ps, List.Forall₂ (fun s p => s ∈ dom p) ps (par v) → ∀ s ∈ dom v, 0 < Q v s ps) : Overlaps dom vs par Q x₀ I := by
  intro v hv _ z hz _
  refine lt_of_le_of_ne (h.mass_nonneg _ _) fun h0 => ?_
  let σ : V → S := fun u => if u ∈ vs then z u else x₀ u
  have hσ : σ ∈ worlds dom vs x₀ := mem_worlds_of h.nodup (fun u hu => by simp only [σ, if_pos hu]; exact hz u hu)
    fun u hu => by simp only [σ, if_neg hu]
  have hσd : ∀ u ∈ vs, σ u ∈ dom u := fun u hu => (worlds_valid hσ u).1 hu
  have hzz : (par v).map z = (par v).map σ := List.map_congr_left fun p hp => by simp only [σ, if_pos (h.parents v hv p hp)]
  rw [hzz, ← massWith_world hσ] at h0
  obtain ⟨u, hu, -, hu0⟩ := h.impossible hσd hv h0.symm
  exact absurd hu0 (hpos u hu _ (h.config fun p hp => hσd p (h.parents u hu p hp)) _ (hσd u hu)).ne'

/-- The probability of an assignment according to the estimates, after the interventions. -/
noncomputable def estJointSet {n : ℕ} (dom : V → List S) (vs : List V) (par : V → List V) (a : FitArgs ℝ) (R : Fin n → V → S)
    (I : V → Option (Dist S ℝ)) (x : V → S) : ℝ :=
  (vs.map fun v => match I v with
    | some d => d.val (x v)
    | none => estimate a (dom v) ((par v).map fun p => (dom p).length).prod (famCount par R v ((par v).map x)) (x v)).prod

theorem joints_close_set (h : IsModel dom vs par Q) {x₀ : V → S} {a : FitArgs ℝ} (hess : ∀ n, a.ess = some n → 0 < n)
    (hm : a.method = "MaximumLikelihoodEstimator" ∨ a.prior = some "K2" ∨ a.ess ≠ none)
    (hd : ∀ v ∈ vs, ∀ d, I v = some d → d.IsDist (dom v).toFinset)
    (hov : Overlaps dom vs par Q x₀ I) {η : ℝ} (hη : 0 ≤ η) {n : ℕ} {R : Fin n → V → S}
    (hest : ∀ v ∈ vs, ∀ z : V → S, (∀ u ∈ vs, z u ∈ dom u) → 0 < massWith dom vs (truth vs par Q) x₀ (fun x => (par v).map x = (par v).map z) →
        ∀ s ∈ dom v, |estimate a (dom v) ((par v).map fun p => (dom p).length).prod (famCount par R v ((par v).map z)) s -
          Q v s ((par v).map z)| ≤ η) {σ : V → S} (hσ : σ ∈ worlds dom vs x₀) :
    |estJointSet dom vs par a R I σ - truth vs par (setTo Q I) σ| ≤ vs.length * η := by
  have hv : ∀ v ∈ vs, σ v ∈ dom v := fun v hv => (worlds_valid hσ v).1 hv
  have hI := h.setTo hd
  have hcfg : ∀ v ∈ vs, List.Forall₂ (fun s p => s ∈ dom p) ((par v).map σ) (par v) := fun v hv' =>
    h.config fun p hp => hv p (h.parents v hv' p hp)
  have hcfgs : ∀ v ∈ vs, 0 < ((par v).map fun p => (dom p).length).prod := by
    intro v hv'
    refine List.prod_pos fun y hy => ?_
    obtain ⟨p, hp, rfl⟩ := List.mem_map.1 hy
    exact List.length_pos_of_mem (hv p (h.parents v hv' p hp))
  have hQ : ∀ v ∈ vs, 0 ≤ setTo Q I v (σ v) ((par v).map σ) ∧ setTo Q I v (σ v) ((par v).map σ) ≤ 1 := fun v hv' =>
    ⟨hI.nonneg v hv' _ (hcfg v hv') _ (hv v hv'), hI.le_one hv' (hcfg v hv') (hv v hv')⟩
  let F : V → ℝ := fun v => match I v with
    | some d => d.val (σ v)
    | none => estimate a (dom v) ((par v).map fun p => (dom p).length).prod (famCount par R v ((par v).map σ)) (σ v)
  have hFs : ∀ v d, I v = some d → F v = d.val (σ v) := fun v d e => by simp only [F, e]
  have hFn : ∀ v, I v = none → F v = estimate a (dom v) ((par v).map fun p => (dom p).length).prod (famCount par R v ((par v).map σ)) (σ v) :=
    fun v e => by simp only [F, e]
  have hQs : ∀ v d ps, I v = some d → setTo Q I v (σ v) ps = d.val (σ v) := fun v d ps e => by simp only [setTo, e]
  have hQn : ∀ v ps, I v = none → setTo Q I v (σ v) ps = Q v (σ v) ps := fun v ps e => by simp only [setTo, e]
  have hE : ∀ v ∈ vs, 0 ≤ F v ∧ F v ≤ 1 := by
    intro v hv'
    cases e : I v with
    | some d =>
      have := hQ v hv'
      rw [hQs v d _ e] at this
      rw [hFs v d e]
      exact this
    | none =>
      rw [hFn v e]
      exact estimate_unit hess hm (hcfgs v hv') _ (hv v hv')
  change |(vs.map F).prod - (vs.map fun v => setTo Q I v (σ v) ((par v).map σ)).prod| ≤ _
  by_cases hall : ∀ v ∈ vs, I v = none → 0 < massWith dom vs (truth vs par Q) x₀ (fun x => (par v).map x = (par v).map σ)
  · refine (prod_close hE hQ fun v hv' => ?_).1
    cases e : I v with
    | some d =>
      rw [hFs v d e, hQs v d _ e, sub_self, abs_zero]
      exact hη
    | none =>
      rw [hFn v e, hQn v _ e]
      exact hest v hv' σ hv (hall v hv' e) _ (hv v hv')
  · push Not at hall
    obtain ⟨v, hv', hIv, h0⟩ := hall
    have h1 : massWith dom vs (truth vs par (setTo Q I)) x₀ (fun x => (par v).map x = (par v).map σ) = 0 := by
      refine le_antisymm (not_lt.1 fun hpos => ?_) (hI.mass_nonneg _ _)
      exact absurd (hov v hv' hIv σ hv hpos) (not_lt.2 h0)
    rw [← massWith_world hσ] at h1
    obtain ⟨u, hu, hup, hu0⟩ := hI.impossible hv hv' h1
    rw [massWith_world hσ] at hup
    have h5 : (1 : ℝ) ≤ vs.length := by
      exact_mod_cast List.length_pos_of_mem hu
    have h4 : (vs.map fun v => setTo Q I v (σ v) ((par v).map σ)).prod = 0 := List.prod_eq_zero (List.mem_map.2 ⟨u, hu, hu0⟩)
    rw [h4, sub_zero]
    cases e : I u with
    | some d =>
      rw [hQs u d _ e] at hu0
      rw [List.prod_eq_zero (List.mem_map.2 ⟨u, hu, (hFs u d e).trans hu0⟩), abs_zero]
      positivity
    | none =>
      rw [hQn u _ e] at hu0
      have h2 := hest u hu σ hv (hov u hu e σ hv hup) _ (hv u hu)
      have h3 := prod_le_factor hE hu
      rw [hu0, sub_zero, ← hFn u e, abs_of_nonneg (hE u hu).1] at h2
      rw [abs_of_nonneg h3.1]
      refine (h3.2.2.trans h2).trans ?_
      nlinarith

/-- With sufficiently many rows among which every assignment has nearly its probability, all conditional probabilities after the interventions that
are computed from the estimates are close to the true ones. -/
theorem effects_close_set (h : IsModel dom vs par Q) {x₀ : V → S} (hx₀ : ∀ v ∈ vs, x₀ v ∈ dom v) {a : FitArgs ℝ}
    (hess : ∀ n, a.ess = some n → 0 < n) (hm : a.method = "MaximumLikelihoodEstimator" ∨ a.prior = some "K2" ∨ a.ess ≠ none)
    (hd : ∀ v ∈ vs, ∀ d, I v = some d → d.IsDist (dom v).toFinset) (hov : Overlaps dom vs par Q x₀ I)
    {ε : ℝ} (hε : 0 < ε) : ∃ δ, 0 < δ ∧ ∃ n₀ : ℕ, 0 < n₀ ∧ ∀ n, n₀ ≤ n → ∀ R : Fin n → V → S,
      (∀ i, ∀ v ∈ vs, R i v ∈ dom v) → (∀ σ ∈ worlds dom vs x₀, |(cell vs R σ : ℝ) / n - truth vs par Q σ| ≤ δ) →
      ∀ (A B : (V → S) → Prop) [DecidablePred A] [DecidablePred B], (∀ x, A x → B x) →
        0 < massWith dom vs (truth vs par (setTo Q I)) x₀ B →
        0 < massWith dom vs (estJointSet dom vs par a R I) x₀ B ∧
        |massWith dom vs (estJointSet dom vs par a R I) x₀ A / massWith dom vs (estJointSet dom vs par a R I) x₀ B -
          massWith dom vs (truth vs par (setTo Q I)) x₀ A / massWith dom vs (truth vs par (setTo Q I)) x₀ B| ≤ ε := by
  have hI := h.setTo hd
  obtain ⟨D, hD, hlow⟩ := exists_least_mass hI x₀
  set W : ℝ := ((worlds dom vs x₀).length : ℝ) with hW
  have hW0 : 0 ≤ W := Nat.cast_nonneg _
  have hL0 : (0 : ℝ) ≤ vs.length := Nat.cast_nonneg _
  set κ : ℝ := min (D / 4) (ε * D / 8) with hκ
  have hκ0 : 0 < κ := lt_min (by positivity) (by positivity)
  set η : ℝ := κ / (W * vs.length + 1) with hη
  have hη0 : 0 < η := by positivity
  obtain ⟨δ, hδ, n₀, hn₀, hest⟩ := estimates_close h hx₀ hess hη0
  refine ⟨δ, hδ, n₀, hn₀, fun n hn R hR hcell A B _ _ hAB hB => ?_⟩
  have h1 := hest n hn R hR hcell
  have hJ := fun σ hσ => joints_close_set h (x₀ := x₀) hess hm hd hov hη0.le h1 (σ := σ) hσ
  have hM : ∀ (A : (V → S) → Prop) [DecidablePred A],
      |massWith dom vs (estJointSet dom vs par a R I) x₀ A - massWith dom vs (truth vs par (setTo Q I)) x₀ A| ≤ κ := by
    intro A _
    refine (massWith_near (by positivity) hJ A).trans ?_
    have h2 : η ≤ κ / (W * vs.length + 1) := le_rfl
    rw [le_div_iff₀ (by positivity)] at h2
    rw [← hW]
    nlinarith
  have hDB := hlow B hB
  have hκD : κ ≤ D / 4 := min_le_left _ _
  have hκε : κ ≤ ε * D / 8 := min_le_right _ _
  have hBc := hM B
  refine ⟨by have := (abs_le.1 hBc).1; linarith, ?_⟩
  have hq := ratio_close (b := 0) (k := 0) (C := massWith dom vs (truth vs par (setTo Q I)) x₀ A)
    (D := massWith dom vs (truth vs par (setTo Q I)) x₀ B)
    (q := massWith dom vs (truth vs par (setTo Q I)) x₀ A / massWith dom vs (truth vs par (setTo Q I)) x₀ B) (by field_simp) hB
    (div_nonneg (hI.mass_nonneg _ _) hB.le) (div_le_one_of_le₀ (hI.mass_mono _ hAB) hB.le) (hM A) hBc (by linarith) le_rfl le_rfl
  simp only [add_zero, mul_zero, zero_mul] at hq
  refine hq.trans ?_
  rw [div_le_iff₀ hB]
  nlinarith

/-- Specification: the calls can be made: every node named exists; every distribution is one over the states of its node; a node that is set has a child
that is not set at that moment. -/
def Plan (net : Net V S ℝ) (E : List (V × V)) (acts : List (V × Option (Dist S ℝ))) : Prop :=
  ∀ before v o after, acts = before ++ (v, o) :: after → v ∈ net.nodes ∧ ∀ d, o = some d →
    d.IsDist (statesOf net v).toFinset ∧ ∃ w, (v, w) ∈ E ∧ inForce before w = none

theorem inForce_mem {acts : List (V × Option (Dist S ℝ))} {v : V} {d : Dist S ℝ} (h : inForce acts v = some d) : (v, some d) ∈ acts := by
  unfold inForce at h
  cases e : acts.reverse.lookup v with
  | none => rw [e] at h; cases h
  | some o =>
    rw [e] at h
    cases h
    exact List.mem_reverse.1 (lookup_mem e)

/-- Rows in which every assignment has nearly its probability give answers after several interventions that are close to the effects. -/
theorem interventions_close {int : ℕ → S} (hint : Injective int) {ns : List V} {E : List (V × V)} (hE : IsStructure ns E) (hEne : E ≠ [])
    {net : Net V S ℝ} (hr : Verif.Network.Reach int ns E net) {x₀ : V → S} (hx₀ : ∀ v ∈ net.nodes, x₀ v ∈ statesOf net v)
    {par : V → List V} (hpar : ∀ v ∈ net.nodes, IsParentList E v (par v)) {Q : V → S → List S → ℝ} (hQ : IsConditional net par Q)
    {a : FitArgs ℝ} (ha : GoodArgs a) (hess : ∀ n, a.ess = some n → 0 < n)
    {acts : List (V × Option (Dist S ℝ))} (hacts : Plan net E acts)
    (hconn : ∀ u ∈ net.nodes, ∀ w ∈ net.nodes, Graph.WConn (Left (inForce acts) E) u w)
    (hov : Overlaps (statesOf net) net.nodes par Q x₀ (inForce acts)) {ε : ℝ} (hε : 0 < ε) :
    ∃ δ : ℝ, 0 < δ ∧ ∃ n₀ : ℕ, ∀ n, n₀ ≤ n → ∀ R : Fin n → V → S, (∀ i, ∀ v ∈ net.nodes, R i v ∈ statesOf net v) →
      (∀ σ ∈ worlds (statesOf net) net.nodes x₀, |(cell net.nodes R σ : ℝ) / n - truth net.nodes par Q σ| ≤ δ) →
      ∀ (h : Heap V S) (ref : ℕ) (df : DF V S), h[ref]? = some df → RowsAre net.nodes df R →
      ∀ (nd : Nondet V), nd.Legal → ∀ (okName : V → Bool), (∀ v ∈ net.nodes, okName v = true) →
      ∃ net' h' tables e e', fitCpds int net h ref a = (net', h', .ok ()) ∧ cpds net' = .ok tables ∧
        Engine.create okName (framesOf tables) = .ok e ∧ Acts e acts e' ∧
          ∀ ev : List (V × S), (ev.map Prod.fst).Nodup → (∀ q ∈ ev, q.1 ∈ net.nodes ∧ q.2 ∈ statesOf net q.1) →
            0 < massWith (statesOf net) net.nodes (truth net.nodes par (setTo Q (inForce acts))) x₀ (Agrees ev) →
            ∃ out, e'.query nd ev = .ok out ∧ ReportsWithin ε (statesOf net) net.nodes (fun v s =>
              massWith (statesOf net) net.nodes (truth net.nodes par (setTo Q (inForce acts))) x₀ (fun x => Agrees ev x ∧ x v = s) /
                massWith (statesOf net) net.nodes (truth net.nodes par (setTo Q (inForce acts))) x₀ (Agrees ev)) out := by
  have hne : ∀ v ∈ net.nodes, statesOf net v ≠ [] := fun v hv => List.ne_nil_of_mem (hx₀ v hv)
  have hM := isModel_of hE hr (states_nodup hE hr) hpar hQ
  have hm : a.method = "MaximumLikelihoodEstimator" ∨ a.prior = some "K2" ∨ a.ess ≠ none := by
    rcases ha with h1 | ⟨-, h1 | ⟨-, h1⟩⟩
    · exact Or.inl h1
    · exact Or.inr (Or.inl h1)
    · exact Or.inr (Or.inr h1)
  have hd : ∀ v ∈ net.nodes, ∀ d, inForce acts v = some d → d.IsDist (statesOf net v).toFinset := by
    intro v _ d hI
    obtain ⟨l, r, hlr⟩ := List.append_of_mem (inForce_mem hI)
    exact ((hacts l v (some d) r hlr).2 d rfl).1
  obtain ⟨δ, hδ, n₁, -, hclose⟩ := effects_close_set hM hx₀ hess hm hd hov hε
  refine ⟨δ, hδ, n₁, fun n hn R hR hgood h ref df hdf hrows nd hnd okName hokn => ?_⟩
  have hcl := hclose n hn R hR hgood
  obtain ⟨e₀, he₀⟩ := List.exists_mem_of_ne_nil E hEne
  have hst : net.states ≠ none := by
    intro hst
    have hn : e₀.1 ∈ net.nodes := by
      rw [(hr.wf hE).nodes]
      exact Verif.Network.mem_nodesOfEdges.2 ⟨_, he₀, Or.inl rfl⟩
    exact hne _ hn (by rw [statesOf, hst])
  have hok := (Verif.Network.fit_ok_iff hE hr hdf a).2 ⟨hst, hrows.1, ha⟩
  obtain ⟨net', h', res, hf⟩ : ∃ net' h' res, fitCpds int net h ref a = (net', h', res) := ⟨_, _, _, rfl⟩
  rw [hf] at hok
  simp only at hok
  subst hok
  obtain ⟨tables, e, t1, t2, t3⟩ := Verif.Network.fit_then_do hint hE hEne hr hne hdf hess hf hpar hnd hokn hx₀
  obtain ⟨hacc, hans⟩ := t3 acts
  obtain ⟨e', he'⟩ := hacc.2 hacts
  obtain ⟨-, hq⟩ := (hans e' he').1 hconn
  have hmass : ∀ (A : (V → S) → Prop) [DecidablePred A], Verif.Network.doMass (inForce acts) a net df par x₀ A =
      massWith (statesOf net) net.nodes (estJointSet (statesOf net) net.nodes par a R (inForce acts)) x₀ A := by
    intro A _
    unfold Verif.Network.doMass massWith
    congr 1
    apply List.map_congr_left
    intro x hx
    unfold Verif.Network.doJoint estJointSet
    congr 1
    apply List.map_congr_left
    intro v hv
    cases inForce acts v with
    | some d => rfl
    | none => simp only [observed_rows hR hrows hv (hM.parents v hv)]
  refine ⟨net', h', tables, e, e', hf, t1, t2, he', fun ev hk hev hpos => ?_⟩
  have h0 := (hcl (Agrees ev) (Agrees ev) (fun _ h => h) hpos).1
  rw [← hmass] at h0
  obtain ⟨out, ho, hrep⟩ := hq ev hk hev h0
  refine ⟨out, ho, hrep.vars, hrep.states, fun q hq r hrq => ?_⟩
  rw [hrep.probs q hq r hrq, hmass, hmass]
  exact (hcl (fun x => Agrees ev x ∧ x q.1 = r.1) (Agrees ev) (fun _ h => h.1) hpos).2

/-- **C150**: after fitting to sufficiently many independent rows of a distribution with the structure of the network, any sequence of interventions and
resets that can be made is accepted, and, if it does not leave the network in pieces, the answers after it are close to the probabilities of the distribution in which the
conditional distributions of the nodes that are set are replaced, provided states of the parents of a node that is not set that are possible after the
interventions are possible without them. -/
theorem several_effects_consistent {int : ℕ → S} (hint : Injective int) {ns : List V} {E : List (V × V)} (hE : IsStructure ns E) (hEne : E ≠ [])
    {net : Net V S ℝ} (hr : Verif.Network.Reach int ns E net) {x₀ : V → S} (hx₀ : ∀ v ∈ net.nodes, x₀ v ∈ statesOf net v)
    {par : V → List V} (hpar : ∀ v ∈ net.nodes, IsParentList E v (par v)) {Q : V → S → List S → ℝ} (hQ : IsConditional net par Q)
    {a : FitArgs ℝ} (ha : GoodArgs a) (hess : ∀ n, a.ess = some n → 0 < n)
    {acts : List (V × Option (Dist S ℝ))} (hacts : Plan net E acts)
    (hconn : ∀ u ∈ net.nodes, ∀ w ∈ net.nodes, Graph.WConn (Left (inForce acts) E) u w)
    (hov : Overlaps (statesOf net) net.nodes par Q x₀ (inForce acts)) {ε p : ℝ} (hε : 0 < ε) (hp : 0 < p) :
    ∃ n₀ : ℕ, ∀ n, n₀ ≤ n → ∀ {Ω : Type} [MeasurableSpace Ω] (P : Measure Ω) [IsProbabilityMeasure P] (R : Fin n → Ω → V → S),
      RowsFrom P (statesOf net) net.nodes par Q R →
      ∃ G : Set Ω, MeasurableSet G ∧ 1 - ENNReal.ofReal p ≤ P G ∧
      ∀ ω ∈ G, ∀ (h : Heap V S) (ref : ℕ) (df : DF V S), h[ref]? = some df → RowsAre net.nodes df (fun i => R i ω) →
      ∀ (nd : Nondet V), nd.Legal → ∀ (okName : V → Bool), (∀ v ∈ net.nodes, okName v = true) →
      ∃ net' h' tables e e', fitCpds int net h ref a = (net', h', .ok ()) ∧ cpds net' = .ok tables ∧
        Engine.create okName (framesOf tables) = .ok e ∧ Acts e acts e' ∧
          ∀ ev : List (V × S), (ev.map Prod.fst).Nodup → (∀ q ∈ ev, q.1 ∈ net.nodes ∧ q.2 ∈ statesOf net q.1) →
            0 < massWith (statesOf net) net.nodes (truth net.nodes par (setTo Q (inForce acts))) x₀ (Agrees ev) →
            ∃ out, e'.query nd ev = .ok out ∧ ReportsWithin ε (statesOf net) net.nodes (fun v s =>
              massWith (statesOf net) net.nodes (truth net.nodes par (setTo Q (inForce acts))) x₀ (fun x => Agrees ev x ∧ x v = s) /
                massWith (statesOf net) net.nodes (truth net.nodes par (setTo Q (inForce acts))) x₀ (Agrees ev)) out := by
  obtain ⟨δ, hδ, n₁, hclose⟩ := interventions_close hint hE hEne hr hx₀ hpar hQ ha hess hacts hconn hov hε
  obtain ⟨n₀, hn₀, hrc⟩ := rows_close (isModel_of hE hr (states_nodup hE hr) hpar hQ) x₀ hδ hp n₁
  refine ⟨n₀, fun n hn Ω _ P _ R hR => ?_⟩
  obtain ⟨G, hG, hPG, hgood⟩ := hrc n hn P R hR
  exact ⟨G, hG, hPG, fun ω hω => hclose n (hn₀.trans hn) _ (hgood ω hω).1 (hgood ω hω).2⟩

/-- **C150**, for a growing data set: almost surely, for all such sequences of interventions and resets at once, the answers converge to the effects. -/
theorem several_effects_converge {int : ℕ → S} (hint : Injective int) {ns : List V} {E : List (V × V)} (hE : IsStructure ns E) (hEne : E ≠ [])
    {net : Net V S ℝ} (hr : Verif.Network.Reach int ns E net) {x₀ : V → S} (hx₀ : ∀ v ∈ net.nodes, x₀ v ∈ statesOf net v)
    {par : V → List V} (hpar : ∀ v ∈ net.nodes, IsParentList E v (par v)) {Q : V → S → List S → ℝ} (hQ : IsConditional net par Q)
    {Ω : Type} [MeasurableSpace Ω] {P : Measure Ω} [IsProbabilityMeasure P] {R : ℕ → Ω → V → S} (hR : RowsFrom P (statesOf net) net.nodes par Q R) :
    ∀ᵐ ω ∂P, ∀ a : FitArgs ℝ, GoodArgs a → (∀ n, a.ess = some n → 0 < n) →
      ∀ acts : List (V × Option (Dist S ℝ)), Plan net E acts →
      (∀ u ∈ net.nodes, ∀ w ∈ net.nodes, Graph.WConn (Left (inForce acts) E) u w) →
      Overlaps (statesOf net) net.nodes par Q x₀ (inForce acts) → ∀ ε > 0, ∃ n₀ : ℕ, ∀ n, n₀ ≤ n →
      ∀ (h : Heap V S) (ref : ℕ) (df : DF V S), h[ref]? = some df → RowsAre net.nodes df (fun i : Fin n => R i ω) →
      ∀ (nd : Nondet V), nd.Legal → ∀ (okName : V → Bool), (∀ v ∈ net.nodes, okName v = true) →
      ∃ net' h' tables e e', fitCpds int net h ref a = (net', h', .ok ()) ∧ cpds net' = .ok tables ∧
        Engine.create okName (framesOf tables) = .ok e ∧ Acts e acts e' ∧
          ∀ ev : List (V × S), (ev.map Prod.fst).Nodup → (∀ q ∈ ev, q.1 ∈ net.nodes ∧ q.2 ∈ statesOf net q.1) →
            0 < massWith (statesOf net) net.nodes (truth net.nodes par (setTo Q (inForce acts))) x₀ (Agrees ev) →
            ∃ out, e'.query nd ev = .ok out ∧ ReportsWithin ε (statesOf net) net.nodes (fun v s =>
              massWith (statesOf net) net.nodes (truth net.nodes par (setTo Q (inForce acts))) x₀ (fun x => Agrees ev x ∧ x v = s) /
                massWith (statesOf net) net.nodes (truth net.nodes par (setTo Q (inForce acts))) x₀ (Agrees ev)) out := by
  filter_upwards [stream_close (isModel_of hE hr (states_nodup hE hr) hpar hQ) x₀ hR] with ω hω
  intro a ha hess acts hacts hconn hov ε hε
  obtain ⟨δ, hδ, n₁, hclose⟩ := interventions_close hint hE hEne hr hx₀ hpar hQ ha hess hacts hconn hov hε
  obtain ⟨n₂, hn₂⟩ := hω.2 δ hδ
  exact ⟨max n₁ n₂, fun n hn => hclose n (le_of_max_le_left hn) _ (fun i => hω.1 i) (hn₂ n (le_of_max_le_right hn))⟩

end

end Verif.Consistent
