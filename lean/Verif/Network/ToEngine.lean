import Verif.Network.PropsFit
import Verif.BBN.EngineProps

/-!
# C70: from data to exact inference

A network fitted to data meets the hypotheses of the inference theorems (C14–C28).
-/

namespace Verif.Network

open Verif.BBN (lookup_mem lookup_of_mem_nodup lookup_isSome_iff Frame Fitted netNodes cpdsOf domOf
  IsNetwork NodesWF link_arrows arrows)
open Function

section
variable {V S K : Type} [LinearOrder V] [LinearOrder S]

/-- The frames `bn.cpds` as the inference engine reads them. -/
def framesOf [Zero K] (tables : List (V × Table V S K)) : List (V × Frame V S K) :=
  tables.map fun q => (q.1, ⟨q.2.index, q.2.parents, fun s ps => (q.2.entry s ps).getD 0⟩)

theorem mem_netNodes_framesOf [Zero K] {tables : List (V × Table V S K)} {n : BBN.Node V S K} :
    n ∈ netNodes (cpdsOf (framesOf tables)) ↔ ∃ q ∈ tables, n = ⟨⟨q.1 :: q.2.parents,
      fun | s :: ps => (q.2.entry s ps).getD 0 | [] => 0⟩, q.1⟩ := by
  simp only [netNodes, cpdsOf, framesOf, List.map_map, List.mem_map]
  constructor
  · rintro ⟨q, hq, rfl⟩; exact ⟨q, hq, rfl⟩
  · rintro ⟨q, hq, rfl⟩; exact ⟨q, hq, rfl⟩

/-- What the inference engine needs of the structure of a fitted network, for numbers of any kind. -/
structure FramesWF [Zero K] (E : List (V × V)) (net : Net V S K) (tables : List (V × Table V S K)) : Prop where
  keys : tables.map Prod.fst = net.nodes
  vars : (netNodes (cpdsOf (framesOf tables))).map BBN.Node.var = net.nodes
  dom : ∀ v ∈ net.nodes, domOf (framesOf tables) v = statesOf net v
  nodup : ∀ v, (statesOf net v).Nodup
  parents_nodes : ∀ v t, (v, t) ∈ tables → ∀ p ∈ t.parents, p ∈ net.nodes
  not_parent : ∀ v t, (v, t) ∈ tables → v ∉ t.parents
  wf : NodesWF (netNodes (cpdsOf (framesOf tables)))
  nonempty : netNodes (cpdsOf (framesOf tables)) ≠ []
  acyclic : Graph.Acyclic (arrows (netNodes (cpdsOf (framesOf tables))))
  connected : BBN.Connected (netNodes (cpdsOf (framesOf tables)))
  config : ∀ v t, (v, t) ∈ tables → ∀ x : V → S, (∀ p ∈ t.parents, x p ∈ domOf (framesOf tables) p) → t.parents.map x ∈ t.cols

theorem framesWF [Zero K] [One K] [Add K] [Div K] [NatCast K] {int : ℕ → S} (hint : Injective int) {ns : List V} {E : List (V × V)}
    (hE : IsStructure ns E) (hEne : E ≠ []) {net net' : Net V S K} (hr : Reach int ns E net)
    (hne : ∀ v ∈ net.nodes, statesOf net v ≠ []) {h h' : Heap V S} {ref : ℕ} {a : FitArgs K}
    (hf : fitCpds int net h ref a = (net', h', .ok ())) {tables : List (V × Table V S K)} (h1 : cpds net' = .ok tables) :
    FramesWF E net tables := by
  have hw := hr.wf hE
  obtain ⟨states, df, ps, hst, hdf, -, -, -⟩ := fitCpds_ok hw hf
  obtain ⟨hn, he, hso, _, _, -, -, tables', h1', h2, h3⟩ := fit_cpds_tables hint hE hr hne hdf hf
  rw [h1] at h1'
  cases h1'
  have hnd : net.nodes.Nodup := by rw [hw.nodes]; exact nodesOfEdges_nodup E
  have hmemE : ∀ e ∈ E, e.1 ∈ net.nodes ∧ e.2 ∈ net.nodes := by
    intro e he
    rw [hw.nodes]
    exact ⟨mem_nodesOfEdges.2 ⟨e, he, Or.inl rfl⟩, mem_nodesOfEdges.2 ⟨e, he, Or.inr rfl⟩⟩
  have hself : ∀ v, (v, v) ∉ E := fun v hv => hw.acyclic v (.single hv)
  have hvars : (netNodes (cpdsOf (framesOf tables))).map BBN.Node.var = net.nodes := by
    rw [BBN.netNodes_vars, cpdsOf, framesOf, List.map_map, List.map_map, ← h2]
    rfl
  have hdom : ∀ v t, (v, t) ∈ tables → domOf (framesOf tables) v = statesOf net v := by
    intro v t ht
    have hl : (framesOf tables).lookup v =
        some ⟨t.index, t.parents, fun s ps => (t.entry s ps).getD 0⟩ := by
      apply lookup_of_mem_nodup
      · rw [framesOf, List.map_map]
        change (tables.map Prod.fst).Nodup
        rw [h2]
        exact hnd
      · exact List.mem_map.2 ⟨(v, t), ht, rfl⟩
    rw [domOf, hl]
    exact (h3 v t ht).1
  have htab : ∀ v ∈ net.nodes, ∃ t, (v, t) ∈ tables := by
    intro v hv
    rw [← h2] at hv
    obtain ⟨q, hq, rfl⟩ := List.mem_map.1 hv
    exact ⟨q.2, hq⟩
  have hdom' : ∀ v ∈ net.nodes, domOf (framesOf tables) v = statesOf net v := by
    intro v hv
    obtain ⟨t, ht⟩ := htab v hv
    exact hdom v t ht
  have hparn : ∀ v t, (v, t) ∈ tables → ∀ p ∈ t.parents, p ∈ net.nodes := by
    intro v t ht p hp
    exact (hmemE _ (((h3 v t ht).2.1.2 p).1 hp)).1
  have hvpar : ∀ v t, (v, t) ∈ tables → v ∉ t.parents := by
    intro v t ht hv
    exact hself v (((h3 v t ht).2.1.2 v).1 hv)
  have hparnd : ∀ v t, (v, t) ∈ tables → t.parents.Nodup := by
    intro v t ht
    exact (h3 v t ht).2.1.1.imp fun h => ne_of_lt h
  have harr : ∀ u w, (u, w) ∈ arrows (netNodes (cpdsOf (framesOf tables))) ↔ (u, w) ∈ E := by
    intro u w
    rw [link_arrows]
    constructor
    · rintro ⟨n, hn, rfl, hu, hne'⟩
      obtain ⟨⟨v, t⟩, hq, rfl⟩ := mem_netNodes_framesOf.1 hn
      rcases List.mem_cons.1 hu with rfl | hu
      · exact absurd rfl hne'
      · exact ((h3 v t hq).2.1.2 u).1 hu
    · intro huw
      obtain ⟨t, ht⟩ := htab w (hmemE _ huw).2
      refine ⟨_, mem_netNodes_framesOf.2 ⟨_, ht, rfl⟩, rfl, ?_, ?_⟩
      · exact List.mem_cons_of_mem _ (((h3 w t ht).2.1.2 u).2 huw)
      · rintro rfl
        exact hself u huw
  have hcfg : ∀ v t, (v, t) ∈ tables → ∀ x : V → S,
      (∀ p ∈ t.parents, x p ∈ domOf (framesOf tables) p) → t.parents.map x ∈ t.cols := by
    intro v t ht x hx
    rw [(h3 v t ht).2.2.2.1, IsConfig, List.forall₂_map_left_iff, List.forall₂_same]
    intro p hp
    rw [← hdom' p (hparn v t ht p hp)]
    exact hx p hp
  refine ⟨h2, hvars, hdom', ?_, hparn, hvpar, ⟨?_, ?_, ?_, ?_⟩, ?_, ?_, ?_, hcfg⟩
  · intro v
    rw [statesOf_eq hst]
    exact keysOf_nodup (hw.encWF hst) v
  · rw [hvars]; exact hnd
  · intro n hn
    obtain ⟨q, hq, rfl⟩ := mem_netNodes_framesOf.1 hn
    exact List.mem_cons_self
  · intro n hn
    obtain ⟨⟨v, t⟩, hq, rfl⟩ := mem_netNodes_framesOf.1 hn
    exact List.nodup_cons.2 ⟨hvpar v t hq, hparnd v t hq⟩
  · intro n hn a ha
    obtain ⟨⟨v, t⟩, hq, rfl⟩ := mem_netNodes_framesOf.1 hn
    rw [hvars]
    rcases List.mem_cons.1 ha with rfl | ha
    · rw [← h2]; exact List.mem_map_of_mem hq
    · exact hparn v t hq a ha
  · intro hnil
    rw [hnil] at hvars
    obtain ⟨e, he⟩ := List.exists_mem_of_ne_nil E hEne
    have := (hmemE e he).1
    rw [← hvars] at this
    simp at this
  · exact BBN.acyclic_mono (fun e he => (harr e.1 e.2).1 he) hw.acyclic
  · intro u hu w hw'
    rw [hvars] at hu hw'
    have hsub : ∀ v ∈ net.nodes, v ∈ ns := by
      intro v hv
      rw [hw.nodes, mem_nodesOfEdges] at hv
      obtain ⟨e, he, rfl | rfl⟩ := hv
      · exact (hE.edges_mem e he).1
      · exact (hE.edges_mem e he).2
    exact Graph.wconn_mono (fun e he => (harr e.1 e.2).2 he)
      (hw.conn u (hsub u hu) w (hsub w hw'))

end

section
variable {V S K : Type} [LinearOrder V] [LinearOrder S] [Field K] [LinearOrder K]
  [IsStrictOrderedRing K]

/-- **C70**: the CPDs of a network fitted to data form a Bayesian network in the sense required by
the theorems about inference. -/
theorem fitted_is_network {int : ℕ → S} (hint : Injective int) {ns : List V} {E : List (V × V)}
    (hE : IsStructure ns E) (hEne : E ≠ []) {net net' : Net V S K} (hr : Reach int ns E net)
    (hne : ∀ v ∈ net.nodes, statesOf net v ≠ []) {h h' : Heap V S} {ref : ℕ} {a : FitArgs K}
    (hess : ∀ n, a.ess = some n → 0 < n)
    (hf : fitCpds int net h ref a = (net', h', .ok ())) :
    ∃ tables, cpds net' = .ok tables ∧ tables.map Prod.fst = net.nodes ∧
      Fitted (framesOf tables) := by
  have hw := hr.wf hE
  obtain ⟨states, df, ps, hst, hdf, -, -, -⟩ := fitCpds_ok hw hf
  obtain ⟨hn, he, hso, tables, h1, h2, h3⟩ := fit_cpds_correct hint hE hr hne hdf hf
  obtain ⟨tables', h1', -, h4⟩ := fit_cpds_prob hint hE hr hne hess hf
  rw [h1] at h1'
  cases h1'
  have hF := framesWF hint hE hEne hr hne hf h1
  have hdom : ∀ v t, (v, t) ∈ tables → domOf (framesOf tables) v = statesOf net v := fun v t ht =>
    hF.dom v (h2 ▸ List.mem_map_of_mem ht)
  refine ⟨tables, h1, h2, ?_⟩
  refine ⟨hF.wf, hF.nonempty, hF.acyclic, hF.connected, ?_, ?_, ?_⟩
  · intro n hn
    obtain ⟨⟨v, t⟩, hq, rfl⟩ := mem_netNodes_framesOf.1 hn
    simp only
    rw [hdom v t hq]
    exact hF.nodup v
  · intro n hn x hx
    obtain ⟨⟨v, t⟩, hq, rfl⟩ := mem_netNodes_framesOf.1 hn
    simp only [List.map_cons]
    obtain ⟨P, hP, -⟩ := h4 v t hq
    have := hP (x v) (t.parents.map x) (by
      rw [(h3 v t hq).1, ← hdom v t hq]
      exact hx v List.mem_cons_self) (hF.config v t hq x fun p hp => hx p (List.mem_cons_of_mem _ hp))
    rw [this.1]
    exact this.2
  · intro n hn x hx
    obtain ⟨⟨v, t⟩, hq, rfl⟩ := mem_netNodes_framesOf.1 hn
    simp only at hx ⊢
    rw [hdom v t hq, ← (h3 v t hq).1]
    obtain ⟨P, hP, hsum⟩ := h4 v t hq
    have hcx := hF.config v t hq x fun p hp => hx p (List.mem_cons_of_mem _ hp) (by
      rintro rfl
      exact hF.not_parent p t hq hp)
    rw [← hsum _ hcx]
    congr 1
    apply List.map_congr_left
    intro s hs
    have hmap : t.parents.map (update x v s) = t.parents.map x := by
      apply List.map_congr_left
      intro p hp
      rw [update_of_ne]
      rintro rfl
      exact hF.not_parent p t hq hp
    rw [List.map_cons, update_self, hmap]
    simp only
    rw [(hP s _ hs hcx).1]
    rfl

/-- Specification: the joint weight of an assignment under the estimates from the data, the product
over all nodes of the estimate for its state given the states of its parents. -/
def dataJoint {K' : Type} (a : FitArgs K) (net : Net V S K') (df : DF V S) (par : V → List V) (x : V → S) : K :=
  (net.nodes.map fun v => estimate a (statesOf net v)
    ((par v).map fun p => (statesOf net p).length).prod
    (fun s => observed net df v (par v) s ((par v).map x)) (x v)).prod

/-- Specification: the total joint weight of the assignments of states to the nodes which satisfy
`A`. -/
def dataMass {K' : Type} (a : FitArgs K) (net : Net V S K') (df : DF V S) (par : V → List V) (x₀ : V → S)
    (A : (V → S) → Prop) [DecidablePred A] : K :=
  BBN.massWith (statesOf net) net.nodes (dataJoint a net df par) x₀ A

omit [LinearOrder S] in
theorem worlds_congr {dom dom' : V → List S} {vs : List V} (h : ∀ v ∈ vs, dom v = dom' v)
    (x : V → S) : BBN.worlds dom vs x = BBN.worlds dom' vs x := by
  induction vs generalizing x with
  | nil => rfl
  | cons v vs ih =>
    rw [BBN.worlds, BBN.worlds, h v List.mem_cons_self]
    congr 1
    funext s
    exact ih (fun u hu => h u (List.mem_cons_of_mem _ hu)) _

theorem parentList_unique {E : List (V × V)} {v : V} {l l' : List V} (h : IsParentList E v l)
    (h' : IsParentList E v l') : l = l' := by
  refine List.Perm.eq_of_pairwise (le := (· < ·)) (fun a b _ _ h1 h2 => absurd h1 (lt_asymm h2))
    h.1 h'.1 ?_
  rw [List.perm_ext_iff_of_nodup (h.1.imp fun h => ne_of_lt h) (h'.1.imp fun h => ne_of_lt h)]
  intro u
  rw [h.2, h'.2]

/-- The distribution of the fitted network, as the inference engine reads it, is the one defined by the estimates from the data. -/
theorem massOf_framesOf {int : ℕ → S} (hint : Injective int) {ns : List V} {E : List (V × V)}
    (hE : IsStructure ns E) {net net' : Net V S K} (hr : Reach int ns E net)
    (hne : ∀ v ∈ net.nodes, statesOf net v ≠ []) {h h' : Heap V S} {ref : ℕ} {df : DF V S}
    (hdf : h[ref]? = some df) {a : FitArgs K}
    (hf : fitCpds int net h ref a = (net', h', .ok ()))
    {par : V → List V} (hpar : ∀ v ∈ net.nodes, IsParentList E v (par v))
    {tables : List (V × Table V S K)} (h1 : cpds net' = .ok tables) :
    (∀ v ∈ net.nodes, domOf (framesOf tables) v = statesOf net v) ∧
    ∀ (x₀ : V → S) (A : (V → S) → Prop) [DecidablePred A],
      BBN.massOf (domOf (framesOf tables)) (netNodes (cpdsOf (framesOf tables))) x₀ A =
        dataMass a net df par x₀ A := by
  obtain ⟨-, -, -, tables', h1', h2, h3⟩ := fit_cpds_correct hint hE hr hne hdf hf
  rw [h1] at h1'
  cases h1'
  have hbn : (framesOf tables).map Prod.fst = net.nodes := by
    rw [← h2, framesOf, List.map_map]; rfl
  have hvars : (cpdsOf (framesOf tables)).map Prod.fst = net.nodes := by
    rw [BBN.cpdsOf_vars, hbn]
  have hdom : ∀ v ∈ net.nodes, domOf (framesOf tables) v = statesOf net v := by
    intro v hv
    have hv' := hv
    rw [← h2] at hv'
    obtain ⟨⟨v, t⟩, ht, rfl⟩ := List.mem_map.1 hv'
    have hl : (framesOf tables).lookup v =
        some ⟨t.index, t.parents, fun s ps => (t.entry s ps).getD 0⟩ := by
      apply lookup_of_mem_nodup
      · rw [hbn, (hr.wf hE).nodes]
        exact nodesOfEdges_nodup E
      · exact List.mem_map.2 ⟨(v, t), ht, rfl⟩
    rw [domOf, hl]
    exact (h3 v t ht).1
  have hpn : ∀ v ∈ net.nodes, ∀ p ∈ par v, p ∈ net.nodes := by
    intro v hv p hp
    rw [(hr.wf hE).nodes]
    exact mem_nodesOfEdges.2 ⟨_, ((hpar v hv).2 p).1 hp, Or.inl rfl⟩
  refine ⟨hdom, ?_⟩
  · intro x₀ A _
    unfold BBN.massOf dataMass BBN.massWith
    rw [BBN.netNodes_vars, hvars, worlds_congr hdom]
    congr 1
    apply List.map_congr_left
    intro x hx
    have hx' := BBN.worlds_valid (List.mem_filter.1 hx).1
    unfold BBN.joint dataJoint
    rw [← h2, netNodes, cpdsOf, framesOf, List.map_map, List.map_map, List.map_map, List.map_map]
    congr 1
    apply List.map_congr_left
    rintro ⟨v, t⟩ ht
    have hv : v ∈ net.nodes := by rw [← h2]; exact List.mem_map_of_mem ht
    have hp := parentList_unique (h3 v t ht).2.1 (hpar v hv)
    change (t.entry (x v) (t.parents.map x)).getD 0 = _
    rw [(h3 v t ht).2.2.2.2 (x v) ((hx' v).1 hv) (t.parents.map x), Option.getD_some, hp]
    · rfl
    · rw [IsConfig, List.forall₂_map_left_iff, List.forall₂_same, hp]
      intro p hpp
      exact (hx' p).1 (hpn v hv p hpp)

/-- **C70**: the whole way from data to an answer.  For a network fitted to data, an engine can be
created (if the names are acceptable), and its answer to a query with possible evidence is the exact
conditional distribution of the joint distribution defined by the estimates from the data. -/
theorem fit_then_query {int : ℕ → S} (hint : Injective int) {ns : List V} {E : List (V × V)}
    (hE : IsStructure ns E) (hEne : E ≠ []) {net net' : Net V S K} (hr : Reach int ns E net)
    (hne : ∀ v ∈ net.nodes, statesOf net v ≠ []) {h h' : Heap V S} {ref : ℕ} {df : DF V S}
    (hdf : h[ref]? = some df) {a : FitArgs K} (hess : ∀ n, a.ess = some n → 0 < n)
    (hf : fitCpds int net h ref a = (net', h', .ok ()))
    {par : V → List V} (hpar : ∀ v ∈ net.nodes, IsParentList E v (par v))
    {nd : BBN.Nondet V} (hnd : nd.Legal) {okName : V → Bool}
    (hok : ∀ v ∈ net.nodes, okName v = true) :
    ∃ tables e, cpds net' = .ok tables ∧ BBN.Engine.create okName (framesOf tables) = .ok e ∧
      ∀ (x₀ : V → S), (∀ v ∈ net.nodes, x₀ v ∈ statesOf net v) →
      dataMass a net df par x₀ (fun _ => True) = 1 ∧
      ∀ ev : List (V × S), (ev.map Prod.fst).Nodup →
        (∀ q ∈ ev, q.1 ∈ net.nodes ∧ q.2 ∈ statesOf net q.1) →
        0 < dataMass a net df par x₀ (BBN.Agrees ev) →
        ∃ out, e.query nd ev = .ok out ∧ BBN.Reports (statesOf net) net.nodes
          (fun v s => dataMass a net df par x₀ (fun x => BBN.Agrees ev x ∧ x v = s) /
            dataMass a net df par x₀ (BBN.Agrees ev)) out := by
  obtain ⟨tables, h1, h2, hfit⟩ := fitted_is_network hint hE hEne hr hne hess hf
  obtain ⟨-, -, -, tables', h1', -, h3⟩ := fit_cpds_correct hint hE hr hne hdf hf
  rw [h1] at h1'
  cases h1'
  have hbn : (framesOf tables).map Prod.fst = net.nodes := by
    rw [← h2, framesOf, List.map_map]; rfl
  have hvars : (cpdsOf (framesOf tables)).map Prod.fst = net.nodes := by
    rw [BBN.cpdsOf_vars, hbn]
  obtain ⟨e, he, hinv, hcp⟩ := BBN.Engine.create_ok hfit (okName := okName) (by
    intro q hq
    apply hok
    rw [← hbn]
    exact List.mem_map_of_mem hq)
  obtain ⟨hdom, hmass⟩ := massOf_framesOf hint hE hr hne hdf hf hpar h1
  refine ⟨tables, e, h1, he, fun x₀ hx₀ => ⟨?_, ?_⟩⟩
  · rw [← hmass]
    have hx : ∀ v ∈ (netNodes (cpdsOf (framesOf tables))).map BBN.Node.var,
        x₀ v ∈ domOf (framesOf tables) v := by
      rw [BBN.netNodes_vars, hvars]
      intro v hv
      rw [hdom v hv]
      exact hx₀ v hv
    obtain ⟨dom', h, hd, hx'⟩ := BBN.exists_total_dom hfit.states_nodup (x₀ := x₀) hx
    rw [← BBN.massOf_dom_congr h]
    exact BBN.massOf_total hfit.wf hfit.acyclic ((BBN.IsNetwork.congr h hfit).normalised) hx'
  · intro ev hk hev hpos
    rw [← hmass] at hpos
    obtain ⟨out, ho, hrep⟩ := hinv.query_reports hnd hfit (by rw [hcp]; exact hfit.connected)
      (x₀ := x₀) (ev := ev) (by
        rw [hcp, hvars, hinv.dom_eq]
        intro v hv
        rw [hdom v hv]
        exact hx₀ v hv) hk (by
        intro p hp
        rw [hcp, BBN.netNodes_vars, hvars, hinv.dom_eq, hdom _ (hev p hp).1]
        exact hev p hp) (by rw [hcp, hinv.dom_eq]; exact hpos)
    refine ⟨out, ho, ?_⟩
    rw [hcp, hinv.dom_eq, hvars] at hrep
    simp only [hmass] at hrep
    refine ⟨hrep.vars, ?_, hrep.probs⟩
    intro q hq
    rw [← hdom q.1 (by rw [← hrep.vars]; exact List.mem_map_of_mem hq)]
    exact hrep.states q hq

end

end Verif.Network
