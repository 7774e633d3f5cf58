import Verif.Consistent.AnyLaw
import Verif.Consistent.LimitLinked
import Verif.Consistent.Stream

/-!
# C155: what is learned when the structure is wrong
-/

namespace Verif.Consistent

open Verif.BBN Function MeasureTheory ProbabilityTheory Filter Topology
open Verif.Graph (EdgeRel Linked Collider)
open Verif.Network (FitArgs Net DF Heap IsStructure IsParentList IsConditional GoodArgs statesOf observed estimate fitCpds cpds framesOf)

section
set_option linter.unusedSectionVars false
variable {V S : Type} [LinearOrder V] [LinearOrder S] {Ω : Type} [MeasurableSpace Ω]

theorem lookup_of_mem {α β : Type} [DecidableEq α] {l : List (α × β)} (hn : (l.map Prod.fst).Nodup) {q : α × β} (hq : q ∈ l) :
    l.lookup q.1 = some q.2 := by
  induction l with
  | nil => simp at hq
  | cons p l ih =>
    obtain ⟨k, b⟩ := p
    obtain ⟨h1, h2⟩ := List.nodup_cons.1 hn
    rw [List.lookup_cons]
    rcases List.mem_cons.1 hq with rfl | hm
    · simp
    · have : (q.1 == k) = false := by
        rw [beq_eq_false_iff_ne]
        intro e
        have := List.mem_map_of_mem (f := Prod.fst) hm
        exact h1 (by rwa [e] at this)
      rw [this]
      exact ih h2 hm

theorem ReportsWithin.gives {ε : ℝ} {dom : V → List S} {vs : List V} {p : V → S → ℝ} {out : List (V × List (S × ℝ))} (h : ReportsWithin ε dom vs p out)
    (hvs : vs.Nodup) (hd : ∀ v, (dom v).Nodup) {v : V} (hv : v ∈ vs) {s : S} (hs : s ∈ dom v) : ∃ q, Gives out v s q ∧ |q - p v s| ≤ ε := by
  obtain ⟨⟨v', r⟩, hr, rfl⟩ := List.mem_map.1 (h.vars.symm ▸ hv)
  have hp := h.states _ hr
  obtain ⟨⟨s', q⟩, hq, rfl⟩ := List.mem_map.1 (hp.symm.subset hs)
  exact ⟨q, ⟨r, lookup_of_mem (by rw [h.vars]; exact hvs) hr, lookup_of_mem (hp.nodup_iff.2 (hd _)) hq⟩, h.probs _ hr _ hq⟩

/-- The limit tables are tables of conditional probabilities. -/
theorem limit_conditional {int : ℕ → S} {ns : List V} {E : List (V × V)} (hE : IsStructure ns E) {net : Net V S ℝ} (hr : Verif.Network.Reach int ns E net)
    {x₀ : V → S} (hx₀ : ∀ v ∈ net.nodes, x₀ v ∈ statesOf net v) {par : V → List V} (hpar : ∀ v ∈ net.nodes, IsParentList E v (par v))
    {P : Measure Ω} [IsProbabilityMeasure P] {R : ℕ → Ω → V → S} (hR : SameRows P (statesOf net) net.nodes R) :
    IsConditional net par (limitTable P R (statesOf net) par) := by
  intro v hv ps _
  refine ⟨fun s _ => limitTable_nonneg v s ps, limitTable_sum hR hv (states_nodup hE hr v) (List.ne_nil_of_mem (hx₀ v hv)) ps fun p hp => ?_⟩
  rw [(hr.wf hE).nodes]
  exact Verif.Network.mem_nodesOfEdges.2 ⟨_, ((hpar v hv).2 p).1 hp, Or.inl rfl⟩

/-- **C155**: a network is refitted to a growing data set of independent rows of any distribution, which need not have the structure of the
network.  Almost surely, whatever the method and the accuracy, from some number of rows on fitting succeeds, every table entry is close to the
conditional probability of the state given the states of the parents, and every answer is close to that of the network with these
conditional probabilities.  If the structure has no colliders, the answers for a node and evidence on nodes that are linked to it
and to each other are close to the conditional probabilities of the distribution, although the structure may be wrong. -/
theorem any_distribution {int : ℕ → S} (hint : Injective int) {ns : List V} {E : List (V × V)} (hE : IsStructure ns E) (hEne : E ≠ [])
    {net : Net V S ℝ} (hr : Verif.Network.Reach int ns E net) {x₀ : V → S} (hx₀ : ∀ v ∈ net.nodes, x₀ v ∈ statesOf net v)
    {par : V → List V} (hpar : ∀ v ∈ net.nodes, IsParentList E v (par v))
    {P : Measure Ω} [IsProbabilityMeasure P] {R : ℕ → Ω → V → S} (hR : SameRows P (statesOf net) net.nodes R) :
    ∀ᵐ ω ∂P, ∀ a : FitArgs ℝ, GoodArgs a → (∀ n, a.ess = some n → 0 < n) →
      ∀ ε > 0, ∃ n₀ : ℕ, ∀ n, n₀ ≤ n →
      ∀ (h : Heap V S) (ref : ℕ) (df : DF V S), h[ref]? = some df → RowsAre net.nodes df (fun i : Fin n => R i ω) →
      ∃ net' h' tables, fitCpds int net h ref a = (net', h', .ok ()) ∧ cpds net' = .ok tables ∧ tables.map Prod.fst = net.nodes ∧
        (∀ v t, (v, t) ∈ tables → t.parents = par v ∧ ∀ s ∈ statesOf net v, ∀ z : V → S, (∀ u ∈ net.nodes, z u ∈ statesOf net u) →
          ∃ q, t.entry s ((par v).map z) = some q ∧ |q - limitTable P R (statesOf net) par v s ((par v).map z)| ≤ ε) ∧
        ∀ (nd : Nondet V), nd.Legal → ∀ (okName : V → Bool), (∀ v ∈ net.nodes, okName v = true) →
          ∃ e, Engine.create okName (framesOf tables) = .ok e ∧
          (∀ ev : List (V × S), (ev.map Prod.fst).Nodup → (∀ q ∈ ev, q.1 ∈ net.nodes ∧ q.2 ∈ statesOf net q.1) →
            0 < massWith (statesOf net) net.nodes (truth net.nodes par (limitTable P R (statesOf net) par)) x₀ (Agrees ev) →
            ∃ out, e.query nd ev = .ok out ∧ ReportsWithin ε (statesOf net) net.nodes (fun v s =>
              massWith (statesOf net) net.nodes (truth net.nodes par (limitTable P R (statesOf net) par)) x₀ (fun x => Agrees ev x ∧ x v = s) /
                massWith (statesOf net) net.nodes (truth net.nodes par (limitTable P R (statesOf net) par)) x₀ (Agrees ev)) out) ∧
          ((∀ a c b, ¬ Collider (EdgeRel E) a c b) →
            ∀ ev : List (V × S), (ev.map Prod.fst).Nodup → (∀ q ∈ ev, q.1 ∈ net.nodes ∧ q.2 ∈ statesOf net q.1) →
            0 < rowProb P R (Agrees ev) → ∀ v ∈ net.nodes, v ∉ ev.map Prod.fst →
            (∀ u ∈ v :: ev.map Prod.fst, ∀ w ∈ v :: ev.map Prod.fst, u ≠ w → Linked (EdgeRel E) u w) →
            ∃ out, e.query nd ev = .ok out ∧ ∀ s ∈ statesOf net v, ∃ p, Gives out v s p ∧
              |p - rowProb P R (fun x => Agrees ev x ∧ x v = s) / rowProb P R (Agrees ev)| ≤ ε) := by
  have hw := hr.wf hE
  have hne : ∀ v ∈ net.nodes, statesOf net v ≠ [] := fun v hv => List.ne_nil_of_mem (hx₀ v hv)
  have hd := states_nodup hE hr
  have hM := isModel_of hE hr hd hpar (limit_conditional hE hr hx₀ hpar hR)
  have hL := isLimit hR hM.nodup hM.states hM.parents x₀
  obtain ⟨e₀, he₀⟩ := List.exists_mem_of_ne_nil E hEne
  have hnode : e₀.1 ∈ net.nodes := by
    rw [hw.nodes]
    exact Verif.Network.mem_nodesOfEdges.2 ⟨e₀, he₀, Or.inl rfl⟩
  obtain ⟨states, hst⟩ : ∃ states, net.states = some states := by
    cases hst : net.states with
    | none => exact absurd (by rw [statesOf, hst]) (hne _ hnode)
    | some states => exact ⟨states, rfl⟩
  -- probabilities of linked nodes
  have hlinked : (∀ a c b, ¬ Collider (EdgeRel E) a c b) → ∀ ev : List (V × S), (ev.map Prod.fst).Nodup →
      (∀ q ∈ ev, q.1 ∈ net.nodes ∧ q.2 ∈ statesOf net q.1) → (∀ u ∈ ev.map Prod.fst, ∀ w ∈ ev.map Prod.fst, u ≠ w → Linked (EdgeRel E) u w) →
      massWith (statesOf net) net.nodes (truth net.nodes par (limitTable P R (statesOf net) par)) x₀ (Agrees ev) = rowProb P R (Agrees ev) := by
    intro hcol ev hk hev hl
    obtain ⟨x, hx⟩ := Verif.Network.exists_agrees hk x₀
    have hcongr : ∀ y : V → S, Agrees ev y ↔ ∀ t ∈ ev.map Prod.fst, y t = x t := by
      intro y
      simp only [Agrees, List.mem_map]
      constructor
      · rintro h _ ⟨p, hp, rfl⟩
        rw [h p hp, hx p hp]
      · intro h p hp
        rw [h p.1 ⟨p, hp, rfl⟩, hx p hp]
    rw [rowProb_eq hR hM.nodup hM.states x₀ (Agrees ev) fun y y' h => forall₂_congr fun p hp => by rw [h p.1 (hev p hp).1],
      massWith_congr hcongr, massWith_congr hcongr]
    refine limit_linked hM hx₀ hL (rowLaw_total hR hM.nodup hM.states x₀) (fun v hv => (hpar v hv).2) hw.acyclic hcol ?_ hl x ?_
    · intro u hu
      obtain ⟨p, hp, rfl⟩ := List.mem_map.1 hu
      exact (hev p hp).1
    · intro u hu
      obtain ⟨p, hp, rfl⟩ := List.mem_map.1 hu
      rw [hx p hp]
      exact (hev p hp).2
  filter_upwards [rows_settle hR hM.nodup hM.parents x₀] with ω hω
  obtain ⟨hω1, hω2, hω3⟩ := hω
  intro a ha hess ε hε
  have hm : a.method = "MaximumLikelihoodEstimator" ∨ a.prior = some "K2" ∨ a.ess ≠ none := by
    rcases ha with h1 | ⟨-, h1 | ⟨-, h1⟩⟩
    · exact Or.inl h1
    · exact Or.inr (Or.inl h1)
    · exact Or.inr (Or.inr h1)
  obtain ⟨η, hη, hans⟩ := answers_limit hM x₀ hess hm hε
  obtain ⟨δ, hδ, n₁, -, hest⟩ := estimates_limit hM hL hess hm (lt_min hη hε)
  obtain ⟨n₂, hn₂⟩ := hω3 δ hδ
  refine ⟨max n₁ n₂, fun n hn h ref df hdf hrows => ?_⟩
  have hR' : ∀ i : Fin n, ∀ v ∈ net.nodes, R i ω v ∈ statesOf net v := fun i => hω1 i
  have c1 := hest n (le_of_max_le_left hn) (fun i : Fin n => R i ω) hR' (fun i => hω2 i) (hn₂ n (le_of_max_le_right hn))
  have c2 := hans n (fun i : Fin n => R i ω) fun v hv z hz s hs => (c1 v hv z hz s hs).trans (min_le_left _ _)
  have hok := (Verif.Network.fit_ok_iff hE hr hdf a).2 ⟨by rw [hst]; simp, hrows.1, ha⟩
  obtain ⟨net', h', res, hf⟩ : ∃ net' h' res, fitCpds int net h ref a = (net', h', res) := ⟨_, _, _, rfl⟩
  rw [hf] at hok
  simp only at hok
  subst hok
  obtain ⟨-, -, -, tables, t1, t2, t3⟩ := Verif.Network.fit_cpds_correct hint hE hr hne hdf hf
  refine ⟨net', h', tables, hf, t1, t2, ?_, ?_⟩
  · intro v t ht
    have hv : v ∈ net.nodes := by rw [← t2]; exact List.mem_map_of_mem ht
    obtain ⟨-, hpl, -, -, hent⟩ := t3 v t ht
    have hpv := Verif.Network.parentList_unique hpl (hpar v hv)
    refine ⟨hpv, fun s hs z hz => ⟨_, hent s hs _ ?_, ?_⟩⟩
    · rw [hpv]
      exact hM.config fun q hq => hz q (hM.parents v hv q hq)
    · rw [hpv]
      simp only [observed_rows hR' hrows hv (hM.parents v hv)]
      exact (c1 v hv z hz s hs).trans (min_le_right _ _)
  · intro nd hnd okName hokn
    obtain ⟨tables', e, t1', he, hq⟩ := Verif.Network.fit_then_query hint hE hEne hr hne hdf hess hf hpar hnd hokn
    rw [t1] at t1'
    cases t1'
    obtain ⟨-, hq⟩ := hq x₀ hx₀
    have hmass : ∀ (A : (V → S) → Prop) [DecidablePred A], Verif.Network.dataMass a net df par x₀ A =
        massWith (statesOf net) net.nodes (estJoint (statesOf net) net.nodes par a (fun i : Fin n => R i ω)) x₀ A := by
      intro A _
      unfold Verif.Network.dataMass
      congr 1
      funext x
      unfold Verif.Network.dataJoint estJoint
      refine congrArg List.prod (List.map_congr_left fun v hv => ?_)
      simp only [observed_rows hR' hrows hv (hM.parents v hv)]
    have hall : ∀ ev : List (V × S), (ev.map Prod.fst).Nodup → (∀ q ∈ ev, q.1 ∈ net.nodes ∧ q.2 ∈ statesOf net q.1) →
        0 < massWith (statesOf net) net.nodes (truth net.nodes par (limitTable P R (statesOf net) par)) x₀ (Agrees ev) →
        ∃ out, e.query nd ev = .ok out ∧ ReportsWithin ε (statesOf net) net.nodes (fun v s =>
          massWith (statesOf net) net.nodes (truth net.nodes par (limitTable P R (statesOf net) par)) x₀ (fun x => Agrees ev x ∧ x v = s) /
            massWith (statesOf net) net.nodes (truth net.nodes par (limitTable P R (statesOf net) par)) x₀ (Agrees ev)) out := by
      intro ev hk hev hpos
      have h0 := (c2 (Agrees ev) (Agrees ev) (fun _ h => h) hpos).1
      rw [← hmass] at h0
      obtain ⟨out, ho, hrep⟩ := hq ev hk hev h0
      refine ⟨out, ho, hrep.vars, hrep.states, fun q hq r hrq => ?_⟩
      rw [hrep.probs q hq r hrq, hmass, hmass]
      exact (c2 (fun x => Agrees ev x ∧ x q.1 = r.1) (Agrees ev) (fun _ h => h.1) hpos).2
    refine ⟨e, he, hall, fun hcol ev hk hev hpos v hv hvev hl => ?_⟩
    have e1 := hlinked hcol ev hk hev fun u hu w hw => hl u (List.mem_cons_of_mem _ hu) w (List.mem_cons_of_mem _ hw)
    obtain ⟨out, ho, hrep⟩ := hall ev hk hev (by rw [e1]; exact hpos)
    refine ⟨out, ho, fun s hs => ?_⟩
    obtain ⟨p, hp, hc⟩ := hrep.gives hM.nodup hd hv hs
    refine ⟨p, hp, ?_⟩
    have hag : ∀ x : V → S, Agrees ev x ∧ x v = s ↔ Agrees ((v, s) :: ev) x := fun x => by simp [Agrees, and_comm]
    have e2 := hlinked hcol ((v, s) :: ev) (List.nodup_cons.2 ⟨hvev, hk⟩) (by
      intro q hq
      rcases List.mem_cons.1 hq with rfl | hq
      exacts [⟨hv, hs⟩, hev q hq]) hl
    rw [massWith_congr hag, e1, e2] at hc
    simp only [hag]
    exact hc

end

end Verif.Consistent
