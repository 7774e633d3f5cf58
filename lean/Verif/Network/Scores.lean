import Verif.Network.Equivalent
import Verif.Network.Likelihood

/-!
# C147: comparing structures by the likelihood of the data
-/

namespace Verif.Network

open Verif.Graph (Equivalent EdgeRel)
open Function

section
variable {V S K : Type} [LinearOrder V] [LinearOrder S] [Field K] [LinearOrder K] [IsStrictOrderedRing K]

/-- Specification: the probability that tables give to all rows of the data in which every node has one of its states. -/
def tablesLikelihood (net : Net V S K) (tables : List (V × Table V S K)) (df : DF V S) : K :=
  ((df.rows.filter fun r => Known net r).map fun r =>
    (tables.map fun q => (r q.1).elim 1 fun s => (q.2.entry s (q.2.parents.filterMap r)).getD 0).prod).prod

theorem known_congr {net net₂ : Net V S K} (hn : ∀ v, v ∈ net₂.nodes ↔ v ∈ net.nodes)
    (hst : ∀ v ∈ net.nodes, (statesOf net₂ v).Perm (statesOf net v)) (r : V → Option S) : Known net₂ r ↔ Known net r := by
  unfold Known
  constructor
  · intro h u hu
    obtain ⟨s, hs, e⟩ := h u ((hn u).2 hu)
    exact ⟨s, (hst u hu).mem_iff.1 hs, e⟩
  · intro h u hu
    obtain ⟨s, hs, e⟩ := h u ((hn u).1 hu)
    exact ⟨s, (hst u ((hn u).1 hu)).mem_iff.2 hs, e⟩

theorem tablesLikelihood_eq {net : Net V S K} {df : DF V S} {tables : List (V × Table V S K)} {parents : V → List V} {P : V → S → List S → K}
    (hn : tables.map Prod.fst = net.nodes) (hp : ∀ v t, (v, t) ∈ tables → t.parents = parents v ∧ (∀ p ∈ parents v, p ∈ net.nodes) ∧
      ∀ s ∈ statesOf net v, ∀ ps, IsConfig net (parents v) ps → t.entry s ps = some (P v s ps)) :
    tablesLikelihood net tables df = likelihood net parents P df := by
  unfold tablesLikelihood likelihood
  congr 1
  refine List.map_congr_left fun r hr => ?_
  have hk : Known net r := by simpa using (List.mem_filter.1 hr).2
  rw [rowLikelihood, ← hn, List.map_map]
  congr 1
  refine List.map_congr_left fun q hq => ?_
  obtain ⟨v, t⟩ := q
  have hv : v ∈ net.nodes := by rw [← hn]; exact List.mem_map_of_mem (f := Prod.fst) hq
  obtain ⟨s, hs, hrs⟩ := hk v hv
  obtain ⟨h1, h2, h3⟩ := hp v t hq
  simp only [comp_apply, hrs, Option.elim_some]
  rw [h1, h3 s hs _ (filterMap_config hk h2).1, Option.getD_some]

theorem lookup_filterMap {l : List V} {r : V → Option S} (h : ∀ p ∈ l, ∃ s, r p = some s) {p : V} (hp : p ∈ l) :
    (l.zip (l.filterMap r)).lookup p = r p := by
  induction l with
  | nil => simp at hp
  | cons q l ih =>
    obtain ⟨s, hs⟩ := h q List.mem_cons_self
    rw [List.filterMap_cons_some hs, List.zip_cons_cons, List.lookup_cons]
    by_cases e : p = q
    · subst e
      simp [hs]
    · rw [show (p == q) = false by simpa using e]
      exact ih (fun p hp => h p (List.mem_cons_of_mem _ hp)) ((List.mem_cons.1 hp).resolve_left e)

/-- **C147**: adding edges to a structure never lowers the probability of the data under the tables fitted by maximum likelihood. -/
theorem likelihood_mono {int : ℕ → S} (hint : Injective int) {ns ns₂ : List V} {E E₂ : List (V × V)} (hE : IsStructure ns E)
    (hE₂ : IsStructure ns₂ E₂) {net net₂ net' net₂' : Net V S K} (hr : Reach int ns E net) (hr₂ : Reach int ns₂ E₂ net₂)
    (hsub : ∀ e ∈ E, e ∈ E₂) (hnodes : ∀ v ∈ net₂.nodes, v ∈ net.nodes) (hne : ∀ v ∈ net.nodes, statesOf net v ≠ [])
    (hst : ∀ v ∈ net.nodes, (statesOf net₂ v).Perm (statesOf net v)) {h h' h₂ h₂' : Heap V S} {ref ref₂ : ℕ} {df : DF V S}
    (hdf : h[ref]? = some df) (hdf₂ : h₂[ref₂]? = some df) {a : FitArgs K} (ha : a.method = "MaximumLikelihoodEstimator")
    (hf : fitCpds int net h ref a = (net', h', .ok ())) (hf₂ : fitCpds int net₂ h₂ ref₂ a = (net₂', h₂', .ok ())) :
    ∃ tables tables₂, cpds net' = .ok tables ∧ cpds net₂' = .ok tables₂ ∧ 0 < tablesLikelihood net tables df ∧
      tablesLikelihood net tables df ≤ tablesLikelihood net₂ tables₂ df := by
  have hw := hr.wf hE
  have hw₂ := hr₂.wf hE₂
  have hnn : ∀ v, v ∈ net₂.nodes ↔ v ∈ net.nodes := by
    refine fun v => ⟨hnodes v, fun hv => ?_⟩
    rw [hw.nodes, mem_nodesOfEdges] at hv
    obtain ⟨e, he, hv⟩ := hv
    rw [hw₂.nodes]
    exact mem_nodesOfEdges.2 ⟨e, hsub e he, hv⟩
  have hnd1 : net.nodes.Nodup := by rw [hw.nodes]; exact nodesOfEdges_nodup E
  have hnd2 : net₂.nodes.Nodup := by rw [hw₂.nodes]; exact nodesOfEdges_nodup E₂
  have hperm : net₂.nodes.Perm net.nodes := (List.perm_ext_iff_of_nodup hnd2 hnd1).2 hnn
  have hne₂ : ∀ v ∈ net₂.nodes, statesOf net₂ v ≠ [] := by
    intro v hv e
    have := (hst v ((hnn v).1 hv)).length_eq
    rw [e] at this
    exact hne v ((hnn v).1 hv) (List.eq_nil_of_length_eq_zero this.symm)
  obtain ⟨tables, par, P, h1, h2, h3, h4, h5, -⟩ := fit_maximises_likelihood hint hE hr hne hdf ha hf
  obtain ⟨tables₂, par₂, P₂, k1, k2, k3, k4, -, k5⟩ := fit_maximises_likelihood hint hE₂ hr₂ hne₂ hdf₂ ha hf₂
  have hpl : ∀ v ∈ net.nodes, IsParentList E v (par v) := by
    intro v hv
    rw [← h2] at hv
    obtain ⟨⟨v', t⟩, ht, rfl⟩ := List.mem_map.1 hv
    exact (h3 _ t ht).2.1
  have hpl₂ : ∀ v ∈ net₂.nodes, IsParentList E₂ v (par₂ v) := by
    intro v hv
    rw [← k2] at hv
    obtain ⟨⟨v', t⟩, ht, rfl⟩ := List.mem_map.1 hv
    exact (k3 _ t ht).2.1
  have hpn : ∀ v ∈ net.nodes, ∀ p ∈ par v, p ∈ net.nodes := by
    intro v hv p hp
    rw [hw.nodes]
    exact mem_nodesOfEdges.2 ⟨_, ((hpl v hv).2 p).1 hp, Or.inl rfl⟩
  have hpn₂ : ∀ v ∈ net₂.nodes, ∀ p ∈ par₂ v, p ∈ net₂.nodes := by
    intro v hv p hp
    rw [hw₂.nodes]
    exact mem_nodesOfEdges.2 ⟨_, ((hpl₂ v hv).2 p).1 hp, Or.inl rfl⟩
  have hmem : ∀ v ∈ net.nodes, ∀ p ∈ par v, p ∈ par₂ v := fun v hv p hp =>
    ((hpl₂ v ((hnn v).2 hv)).2 p).2 (hsub _ (((hpl v hv).2 p).1 hp))
  have t1 : tablesLikelihood net tables df = likelihood net par P df := tablesLikelihood_eq h2 fun v t ht => by
    have hv : v ∈ net.nodes := by rw [← h2]; exact List.mem_map_of_mem (f := Prod.fst) ht
    exact ⟨(h3 v t ht).1, hpn v hv, (h3 v t ht).2.2⟩
  have t2 : tablesLikelihood net₂ tables₂ df = likelihood net₂ par₂ P₂ df := tablesLikelihood_eq k2 fun v t ht => by
    have hv : v ∈ net₂.nodes := by rw [← k2]; exact List.mem_map_of_mem (f := Prod.fst) ht
    exact ⟨(k3 v t ht).1, hpn₂ v hv, (k3 v t ht).2.2⟩
  refine ⟨tables, tables₂, h1, k1, by rw [t1]; exact h5, ?_⟩
  rw [t1, t2]
  let Q : V → S → List S → K := fun v s ps => P v s ((par v).filterMap fun p => ((par₂ v).zip ps).lookup p)
  have hQ : IsConditional net₂ par₂ Q := by
    intro v hv ps hps
    have hv1 := (hnn v).1 hv
    have hcfg : IsConfig net (par v) ((par v).filterMap fun p => ((par₂ v).zip ps).lookup p) := by
      have key : ∀ l : List V, (∀ p ∈ l, p ∈ par v) → IsConfig net l (l.filterMap fun p => ((par₂ v).zip ps).lookup p) := by
        intro l
        induction l with
        | nil => exact fun _ => List.Forall₂.nil
        | cons p l ih =>
          intro hl
          have hp := hl p List.mem_cons_self
          have hex : ∀ (l₂ : List V) (ps : List S), IsConfig net₂ l₂ ps → p ∈ l₂ → ∃ s ∈ statesOf net₂ p, (l₂.zip ps).lookup p = some s := by
            intro l₂ ps h
            unfold IsConfig at h
            induction h with
            | nil => simp
            | @cons s q ps l₂ hs _ ih =>
              intro hp
              rw [List.zip_cons_cons, List.lookup_cons]
              by_cases e : p = q
              · subst e
                exact ⟨s, hs, by simp⟩
              · rw [show (p == q) = false by simpa using e]
                exact ih ((List.mem_cons.1 hp).resolve_left e)
          obtain ⟨s, hs, e⟩ := hex (par₂ v) ps hps (hmem v hv1 p hp)
          rw [List.filterMap_cons_some (f := fun p => ((par₂ v).zip ps).lookup p) e]
          exact List.Forall₂.cons ((hst p (hpn v hv1 p hp)).mem_iff.1 hs) (ih fun q hq => hl q (List.mem_cons_of_mem _ hq))
      exact key _ fun _ h => h
    obtain ⟨c1, c2⟩ := h4 v hv1 _ hcfg
    refine ⟨fun s hs => c1 s ((hst v hv1).mem_iff.1 hs), ?_⟩
    rw [((hst v hv1).map _).sum_eq]
    exact c2
  refine le_trans (le_of_eq ?_) (k5 Q hQ).1
  unfold likelihood
  have hrows : (df.rows.filter fun r => Known net₂ r) = df.rows.filter fun r => Known net r := by
    refine List.filter_congr fun r _ => ?_
    simp only [known_congr hnn hst]
  rw [hrows]
  congr 1
  refine List.map_congr_left fun r hr => ?_
  have hk : Known net r := by simpa using (List.mem_filter.1 hr).2
  rw [rowLikelihood, rowLikelihood, (hperm.map _).prod_eq]
  congr 1
  refine List.map_congr_left fun v hv => ?_
  obtain ⟨s, hs, hrs⟩ := hk v hv
  simp only [hrs, Option.elim_some, Q]
  congr 1
  refine List.filterMap_congr fun p hp => ?_
  refine (lookup_filterMap (fun q hq => ?_) (hmem v hv p hp)).symm
  obtain ⟨t, -, ht⟩ := hk q ((hnn q).1 (hpn₂ v ((hnn v).2 hv) q hq))
  exact ⟨t, ht⟩

/-- The probability of the data in terms of the estimates. -/
theorem tablesLikelihood_joint {int : ℕ → S} (hint : Injective int) {ns : List V} {E : List (V × V)} (hE : IsStructure ns E)
    {net net' : Net V S K} (hr : Reach int ns E net) (hne : ∀ v ∈ net.nodes, statesOf net v ≠ []) {h h' : Heap V S} {ref : ℕ} {df : DF V S}
    (hdf : h[ref]? = some df) {a : FitArgs K} (hf : fitCpds int net h ref a = (net', h', .ok ())) (test : DF V S) :
    ∃ tables, cpds net' = .ok tables ∧ tablesLikelihood net tables test =
      ((test.rows.filter fun r => Known net r).map fun r => dataJoint a net df (sortedParents E) fun v => (r v).getD (int 0)).prod := by
  obtain ⟨-, -, -, tables, h1, h2, h3⟩ := fit_cpds_correct hint hE hr hne hdf hf
  refine ⟨tables, h1, ?_⟩
  have hw := hr.wf hE
  unfold tablesLikelihood dataJoint
  congr 1
  refine List.map_congr_left fun r hr' => ?_
  have hk : Known net r := by simpa using (List.mem_filter.1 hr').2
  rw [← h2, List.map_map]
  congr 1
  refine List.map_congr_left fun q hq => ?_
  obtain ⟨v, t⟩ := q
  have hv : v ∈ net.nodes := by rw [← h2]; exact List.mem_map_of_mem (f := Prod.fst) hq
  obtain ⟨s, hs, hrs⟩ := hk v hv
  have hpl := (h3 v t hq).2.1
  have hpe : t.parents = sortedParents E v := parentList_unique hpl (sortedParents_spec hE.edges_nodup v)
  have hpn : ∀ p ∈ t.parents, p ∈ net.nodes := by
    intro p hp
    rw [hw.nodes]
    exact mem_nodesOfEdges.2 ⟨_, (hpl.2 p).1 hp, Or.inl rfl⟩
  have hc := filterMap_config hk hpn
  have hmap : t.parents.filterMap r = t.parents.map fun p => (r p).getD (int 0) := by
    have := congrArg (List.map fun o : Option S => o.getD (int 0)) hc.2
    rw [List.map_map, List.map_map] at this
    rw [← List.map_id (t.parents.filterMap r)]
    exact this.symm
  simp only [comp_apply, hrs, Option.elim_some, Option.getD_some]
  rw [(h3 v t hq).2.2.2.2 s hs _ hc.1, Option.getD_some, hmap, hpe]

/-- **C147**: networks with equivalent structures, fitted to the same data, give any data, not only those they were fitted to, the same
probability. -/
theorem likelihood_equivalent {int : ℕ → S} (hint : Injective int) {ns ns₂ : List V} {E E₂ : List (V × V)} (hE : IsStructure ns E)
    (hE₂ : IsStructure ns₂ E₂) {net net₂ net' net₂' : Net V S K} (hr : Reach int ns E net) (hr₂ : Reach int ns₂ E₂ net₂)
    (heq : Equivalent (EdgeRel E) (EdgeRel E₂)) (hne : ∀ v ∈ net.nodes, statesOf net v ≠ [])
    (hst : ∀ v ∈ net.nodes, (statesOf net₂ v).Perm (statesOf net v)) {h h' h₂ h₂' : Heap V S} {ref ref₂ : ℕ} {df : DF V S}
    (hdf : h[ref]? = some df) (hdf₂ : h₂[ref₂]? = some df) {a : FitArgs K} (hess : ∀ n, a.ess = some n → 0 < n)
    (ha : a.method = "MaximumLikelihoodEstimator" ∨ a.prior = some "BDeu")
    (hf : fitCpds int net h ref a = (net', h', .ok ())) (hf₂ : fitCpds int net₂ h₂ ref₂ a = (net₂', h₂', .ok ())) :
    ∃ tables tables₂, cpds net' = .ok tables ∧ cpds net₂' = .ok tables₂ ∧
      ∀ test : DF V S, tablesLikelihood net tables test = tablesLikelihood net₂ tables₂ test := by
  have hw := hr.wf hE
  have hw₂ := hr₂.wf hE₂
  have hnn : ∀ v, v ∈ net₂.nodes ↔ v ∈ net.nodes := fun v => by rw [hw.nodes, hw₂.nodes]; exact equivalent_nodes heq v
  have hne₂ : ∀ v ∈ net₂.nodes, statesOf net₂ v ≠ [] := by
    intro v hv e
    have := (hst v ((hnn v).1 hv)).length_eq
    rw [e] at this
    exact hne v ((hnn v).1 hv) (List.eq_nil_of_length_eq_zero this.symm)
  obtain ⟨states, -, -, hst', -⟩ := fitCpds_ok hw hf
  have hks : ∀ v, (statesOf net v).Nodup := fun v => by
    rw [statesOf_eq hst']
    exact keysOf_nodup (hw.encWF hst') v
  obtain ⟨tables, h1, -⟩ := tablesLikelihood_joint hint hE hr hne hdf hf df
  obtain ⟨tables₂, k1, -⟩ := tablesLikelihood_joint hint hE₂ hr₂ hne₂ hdf₂ hf₂ df
  refine ⟨tables, tables₂, h1, k1, fun test => ?_⟩
  obtain ⟨t, e1, e2⟩ := tablesLikelihood_joint hint hE hr hne hdf hf test
  obtain ⟨t₂, d1, d2⟩ := tablesLikelihood_joint hint hE₂ hr₂ hne₂ hdf₂ hf₂ test
  rw [h1] at e1
  rw [k1] at d1
  cases e1; cases d1
  rw [e2, d2]
  have hrows : (test.rows.filter fun r => Known net₂ r) = test.rows.filter fun r => Known net r := by
    refine List.filter_congr fun r _ => ?_
    simp only [known_congr hnn hst]
  rw [hrows]
  congr 1
  refine List.map_congr_left fun r _ => ?_
  exact (dataJoint_equivalent hE hE₂ hr hr₂ heq hne hst hess ha hks _).symm

end

end Verif.Network
