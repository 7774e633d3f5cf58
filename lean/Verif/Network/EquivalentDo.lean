import Verif.BBN.Exchange
import Verif.Network.Equivalent

/-!
# C148: Markov equivalent structures and interventions
-/

namespace Verif.Network

open Verif.BBN (Frame Fitted netNodes cpdsOf domOf arrows)
open Verif.Graph (Equivalent EdgeRel)
open Function

section
variable {V S K : Type} [LinearOrder V] [LinearOrder S] [Field K] [LinearOrder K] [IsStrictOrderedRing K]

/-- What the engine of a fitted network is made of. -/
theorem fitted_parts {int : ℕ → S} (hint : Injective int) {ns : List V} {E : List (V × V)} (hE : IsStructure ns E)
    {net net' : Net V S K} (hr : Reach int ns E net) (hne : ∀ v ∈ net.nodes, statesOf net v ≠ []) {h h' : Heap V S} {ref : ℕ} {df : DF V S}
    (hdf : h[ref]? = some df) {a : FitArgs K} (hf : fitCpds int net h ref a = (net', h', .ok ())) {tables : List (V × Table V S K)}
    (h1 : cpds net' = .ok tables) :
    (∀ u v, (u, v) ∈ arrows (netNodes (cpdsOf (framesOf tables))) ↔ (u, v) ∈ E) ∧
    ∀ v ∈ net.nodes, ∀ x : V → S, (∀ w ∈ net.nodes, x w ∈ statesOf net w) →
      BBN.factorOf (cpdsOf (framesOf tables)) v x = factor a net df x v (parentSet E.toFinset v) := by
  have hw := hr.wf hE
  obtain ⟨-, -, -, tables', h1', h2, h3⟩ := fit_cpds_correct hint hE hr hne hdf hf
  rw [h1] at h1'
  cases h1'
  have hbn : (framesOf tables).map Prod.fst = net.nodes := by
    rw [← h2, framesOf, List.map_map]; rfl
  have hnd : ((cpdsOf (framesOf tables)).map Prod.fst).Nodup := by
    rw [BBN.cpdsOf_vars, hbn, hw.nodes]
    exact nodesOfEdges_nodup E
  have hself : ∀ v, (v, v) ∉ E := fun v hv => hw.acyclic v (.single hv)
  refine ⟨fun u v => ?_, fun v hv x hx => ?_⟩
  · rw [BBN.mem_arrows_netNodes]
    constructor
    · rintro ⟨c, hc, hu, -⟩
      simp only [cpdsOf, framesOf, List.map_map, List.mem_map] at hc
      obtain ⟨⟨w, t⟩, ht, e⟩ := hc
      cases e
      exact ((h3 _ t ht).2.1.2 u).1 hu
    · intro huv
      have hv : v ∈ net.nodes := by
        rw [hw.nodes]
        exact mem_nodesOfEdges.2 ⟨_, huv, Or.inr rfl⟩
      rw [← h2] at hv
      obtain ⟨⟨v', t⟩, ht, rfl⟩ := List.mem_map.1 hv
      refine ⟨⟨t.index.toFinset, t.parents, fun s ps => (t.entry s ps).getD 0⟩, ?_, ((h3 _ t ht).2.1.2 u).2 huv, ?_⟩
      · simp only [cpdsOf, framesOf, List.map_map, List.mem_map]
        exact ⟨_, ht, rfl⟩
      · rintro rfl
        exact hself _ huv
  · have hv' := hv
    rw [← h2] at hv'
    obtain ⟨⟨v', t⟩, ht, rfl⟩ := List.mem_map.1 hv'
    have hl : (cpdsOf (framesOf tables)).lookup v' = some ⟨t.index.toFinset, t.parents, fun s ps => (t.entry s ps).getD 0⟩ := by
      apply BBN.lookup_of_mem_nodup hnd
      simp only [cpdsOf, framesOf, List.map_map, List.mem_map]
      exact ⟨_, ht, rfl⟩
    have hp := (h3 v' t ht).2.1
    have hpn : ∀ p ∈ t.parents, p ∈ net.nodes := by
      intro p hpp
      rw [hw.nodes]
      exact mem_nodesOfEdges.2 ⟨_, (hp.2 p).1 hpp, Or.inl rfl⟩
    unfold BBN.factorOf
    rw [hl, Option.map_some, Option.getD_some]
    change (t.entry (x v') (t.parents.map x)).getD 0 = factor a net df x v' (parentSet E.toFinset v')
    rw [(h3 v' t ht).2.2.2.2 (x v') (hx v' hv) (t.parents.map x), Option.getD_some]
    · have hset : parentSet E.toFinset v' = t.parents.toFinset := by
        ext u
        rw [mem_parentSet, List.mem_toFinset, List.mem_toFinset, hp.2]
      unfold factor
      rw [hset, List.prod_toFinset _ (hp.1.imp fun h => ne_of_lt h)]
      congr 1
      funext s
      unfold observed
      refine List.countP_congr fun r _ => ?_
      simp only [decide_eq_true_eq, List.map_map, List.map_inj_left, List.mem_toFinset, comp_apply]
    · rw [IsConfig, List.forall₂_map_left_iff, List.forall₂_same]
      exact fun p hpp => hx p (hpn p hpp)

/-- **C148**: two equivalent structures, fitted to the same data.  After any history of resets, queries, and interventions on nodes that have the same
parents in both structures, the next such intervention or reset is accepted or rejected alike, and the next query either raises for both or gives
the same answer. -/
theorem equivalent_interventions {int : ℕ → S} (hint : Injective int) {ns ns₂ : List V} {E E₂ : List (V × V)} (hE : IsStructure ns E) (hEne : E ≠ [])
    (hE₂ : IsStructure ns₂ E₂) {net net₂ net' net₂' : Net V S K} (hr : Reach int ns E net) (hr₂ : Reach int ns₂ E₂ net₂)
    (heq : Equivalent (EdgeRel E) (EdgeRel E₂)) (hne : ∀ v ∈ net.nodes, statesOf net v ≠ [])
    (hst : ∀ v ∈ net.nodes, (statesOf net₂ v).Perm (statesOf net v)) {h h' h₂ h₂' : Heap V S} {ref ref₂ : ℕ} {df : DF V S}
    (hdf : h[ref]? = some df) (hdf₂ : h₂[ref₂]? = some df) {a : FitArgs K} (hess : ∀ n, a.ess = some n → 0 < n)
    (ha : a.method = "MaximumLikelihoodEstimator" ∨ a.prior = some "BDeu")
    (hf : fitCpds int net h ref a = (net', h', .ok ())) (hf₂ : fitCpds int net₂ h₂ ref₂ a = (net₂', h₂', .ok ()))
    {okName okName₂ : V → Bool} (hok : ∀ v ∈ net.nodes, okName v = true) (hok₂ : ∀ v ∈ net.nodes, okName₂ v = true)
    {nd nd₂ : BBN.Nondet V} (hnd : nd.Legal) (hnd₂ : nd₂.Legal) :
    ∃ tables tables₂ e e₂, cpds net' = .ok tables ∧ cpds net₂' = .ok tables₂ ∧ BBN.Engine.create okName (framesOf tables) = .ok e ∧
      BBN.Engine.create okName₂ (framesOf tables₂) = .ok e₂ ∧
      ∀ ops : List (BBN.Op V S K), (∀ v d, .doIt v d ∈ ops → ∀ u, (u, v) ∈ E ↔ (u, v) ∈ E₂) →
        (∀ v d, (∀ u, (u, v) ∈ E ↔ (u, v) ∈ E₂) →
          ((e₂.run nd₂ ops).doIntervention v d).2 = ((e.run nd ops).doIntervention v d).2) ∧
        (∀ v, ((e₂.run nd₂ ops).resetDo v).2 = ((e.run nd ops).resetDo v).2) ∧
        ∀ ev : List (V × S), (ev.map Prod.fst).Nodup →
          (∃ out out₂, (e.run nd ops).query nd ev = .ok out ∧ (e₂.run nd₂ ops).query nd₂ ev = .ok out₂ ∧
            BBN.SameAnswer id (fun _ => id) out out₂) ∨
          (∃ err, (e.run nd ops).query nd ev = .error err) ∧ ∃ err, (e₂.run nd₂ ops).query nd₂ ev = .error err := by
  have hw := hr.wf hE
  have hw₂ := hr₂.wf hE₂
  have hnn : ∀ v, v ∈ net₂.nodes ↔ v ∈ net.nodes := fun v => by rw [hw.nodes, hw₂.nodes]; exact equivalent_nodes heq v
  have hnd1 : net.nodes.Nodup := by rw [hw.nodes]; exact nodesOfEdges_nodup E
  have hnd2 : net₂.nodes.Nodup := by rw [hw₂.nodes]; exact nodesOfEdges_nodup E₂
  have hperm : net₂.nodes.Perm net.nodes := (List.perm_ext_iff_of_nodup hnd2 hnd1).2 hnn
  have hne₂ : ∀ v ∈ net₂.nodes, statesOf net₂ v ≠ [] := by
    intro v hv e
    have := (hst v ((hnn v).1 hv)).length_eq
    rw [e] at this
    exact hne v ((hnn v).1 hv) (List.eq_nil_of_length_eq_zero this.symm)
  obtain ⟨e₀, he₀⟩ := List.exists_mem_of_ne_nil E hEne
  have hm₀ : e₀.1 ∈ net.nodes := by
    rw [hw.nodes]
    exact mem_nodesOfEdges.2 ⟨e₀, he₀, Or.inl rfl⟩
  have hEne₂ : E₂ ≠ [] := by
    rintro rfl
    have := (hnn e₀.1).2 hm₀
    rw [hw₂.nodes, mem_nodesOfEdges] at this
    simp at this
  obtain ⟨tables, hc, n1, f1⟩ := fitted_is_network hint hE hEne hr hne hess hf
  obtain ⟨tables₂, hc₂, n2, f2⟩ := fitted_is_network hint hE₂ hEne₂ hr₂ hne₂ hess hf₂
  have w1 := framesWF hint hE hEne hr hne hf hc
  have w2 := framesWF hint hE₂ hEne₂ hr₂ hne₂ hf₂ hc₂
  have hfr : (framesOf tables).map Prod.fst = net.nodes := by rw [← n1, framesOf, List.map_map]; rfl
  have hfr₂ : (framesOf tables₂).map Prod.fst = net₂.nodes := by rw [← n2, framesOf, List.map_map]; rfl
  obtain ⟨e, he, hinv, hcp⟩ := BBN.Engine.create_ok f1 (okName := okName) fun q hq => hok _ (hfr ▸ List.mem_map_of_mem (f := Prod.fst) hq)
  obtain ⟨e₂, he₂, hinv₂, hcp₂⟩ := BBN.Engine.create_ok f2 (okName := okName₂) fun q hq =>
    hok₂ _ ((hnn _).1 (hfr₂ ▸ List.mem_map_of_mem (f := Prod.fst) hq))
  obtain ⟨a1, q1⟩ := fitted_parts hint hE hr hne hdf hf hc
  obtain ⟨a2, q2⟩ := fitted_parts hint hE₂ hr₂ hne₂ hdf₂ hf₂ hc₂
  have hG : (fun a b => (a, b) ∈ E.toFinset) = EdgeRel E := by funext a b; simp [EdgeRel]
  have hG₂ : (fun a b => (a, b) ∈ E₂.toFinset) = EdgeRel E₂ := by funext a b; simp [EdgeRel]
  have hX : BBN.Exchange (fun v => ∀ u, (u, v) ∈ E ↔ (u, v) ∈ E₂) (framesOf tables) (framesOf tables₂) := by
    refine ⟨by rw [hfr, hfr₂]; exact hperm, fun v hv => ?_, fun v hv u => ?_, fun u v => ?_, fun J hJ x hx => ?_⟩
    · rw [hfr] at hv
      rw [w1.dom v hv, w2.dom v ((hnn v).2 hv)]
      exact hst v hv
    · rw [a1, a2]
      exact (hv u).symm
    · unfold Graph.Link
      rw [a1, a1, a2, a2]
      exact (heq.links u v).symm
    · rw [hfr] at hx ⊢
      have hx1 : ∀ w ∈ net.nodes, x w ∈ statesOf net w := fun w hw' => by rw [← w1.dom w hw']; exact hx w hw'
      have hx2 : ∀ w ∈ net₂.nodes, x w ∈ statesOf net₂ w := fun w hw' => (hst w ((hnn w).1 hw')).mem_iff.2 (hx1 w ((hnn w).1 hw'))
      have e1 : ∏ v ∈ net.nodes.toFinset \ J, BBN.factorOf (cpdsOf (framesOf tables)) v x =
          ∏ v ∈ net.nodes.toFinset \ J, factor a net df x v (parentSet E.toFinset v) :=
        Finset.prod_congr rfl fun v hv => q1 v (List.mem_toFinset.1 (Finset.mem_sdiff.1 hv).1) x hx1
      have e2 : ∏ v ∈ net.nodes.toFinset \ J, BBN.factorOf (cpdsOf (framesOf tables₂)) v x =
          ∏ v ∈ net.nodes.toFinset \ J, factor a net df x v (parentSet E₂.toFinset v) := by
        refine Finset.prod_congr rfl fun v hv => ?_
        have hv' := List.mem_toFinset.1 (Finset.mem_sdiff.1 hv).1
        rw [q2 v ((hnn v).2 hv') x hx2]
        refine factor_congr hnn hst a x hv' fun t ht => ?_
        rw [← hnn, hw₂.nodes]
        exact mem_nodesOfEdges.2 ⟨(t, v), List.mem_toFinset.1 (mem_parentSet.1 ht), Or.inl rfl⟩
      rw [e1, e2]
      symm
      refine factors_equivalent_off (net := net) w1.nodup hess ha hne (G := E.toFinset) (H := E₂.toFinset) (by rw [hG]; exact hw.acyclic)
        (by rw [hG₂]; exact hw₂.acyclic) (by rw [hG, hG₂]; exact heq) ?_ ?_ x
      · intro u v huv
        rw [← hnn, ← hnn, hw₂.nodes]
        exact ⟨mem_nodesOfEdges.2 ⟨_, List.mem_toFinset.1 huv, Or.inl rfl⟩, mem_nodesOfEdges.2 ⟨_, List.mem_toFinset.1 huv, Or.inr rfl⟩⟩
      · intro v hv
        ext u
        rw [mem_parentSet, mem_parentSet, List.mem_toFinset, List.mem_toFinset]
        exact hJ v hv u
  obtain ⟨x₀, hx₀⟩ : ∃ x₀ : V → S, ∀ v ∈ (framesOf tables).map Prod.fst, x₀ v ∈ domOf (framesOf tables) v := by
    refine ⟨fun v => (statesOf net v).headD (int 0), fun v hv => ?_⟩
    rw [hfr] at hv
    rw [w1.dom v hv]
    obtain ⟨s, l, hl⟩ := List.exists_cons_of_ne_nil (hne v hv)
    simp [hl]
  refine ⟨tables, tables₂, e, e₂, hc, hc₂, he, he₂, fun ops hops => ?_⟩
  have h0 : BBN.SameUnder (fun v => ∀ u, (u, v) ∈ E ↔ (u, v) ∈ E₂) (fun _ => none) (framesOf tables) (framesOf tables₂) e e₂ :=
    ⟨⟨hinv, fun v _ => by rw [hcp], by simp⟩, ⟨hinv₂, fun v _ => by rw [hcp₂], by simp⟩, by simp⟩
  obtain ⟨I, hI⟩ := h0.run hX f1 f2 (nd := nd) (nd₂ := nd₂) hops
  exact ⟨fun v d hv => (hI.doIt hX f1 f2 hv d).1, fun v => (hI.reset hX f1 f2 v).1, fun ev hk => hI.query hX f1 f2 hnd hnd₂ hx₀ hk⟩

end

end Verif.Network
