import Verif.Structure.Props
import Verif.Network.ToEngine
import Verif.Network.PropsStates
import Verif.Network.PredictQuery

/-!
# From a structure to answers

The usual way through the library: edit a `StructureModel`, make it acyclic, take a connected part, build the network, fit it,
create the inference engine and query.  Each step is modelled elsewhere; here they are put together.
-/

namespace Verif.Network

open Verif.Structure (SM Op Visit EdgeRec Weighted Induced run)
open Verif.Graph (WConn Acyclic EdgeRel Link)
open Function

section
variable {V S K : Type} [LinearOrder V] [LinearOrder S]

/-- A part of an acyclic graph that consists of everything connected to one node is accepted by the constructor. -/
theorem component_accepted {g s : SM V} (hs : Structure.WF s) (hg : ∀ p ∈ g.pairs, p.1 ∈ g.nodes ∧ p.2 ∈ g.nodes) (hac : Acyclic g.pairs)
    {v : V} (hi : Induced g s (WConn g.pairs v)) :
    IsStructure s.nodes s.pairs ∧ ∃ net : Net V S K, init s.nodes s.pairs = .ok net ∧ net.edges = s.pairs ∧
      (s.pairs ≠ [] → ∀ u, u ∈ net.nodes ↔ u ∈ s.nodes) := by
  have hE : IsStructure s.nodes s.pairs := ⟨hs.nodesNodup, hs.pairsNodup, hs.ends'⟩
  have hlift : ∀ u, u ∈ s.nodes → WConn s.pairs v u := by
    intro u hu
    have hw := ((hi.nodes u).1 hu).2
    clear hu
    induction hw with
    | refl => exact .refl
    | @tail b c hb hl ih =>
      refine ih.tail ?_
      have hc : WConn g.pairs v c := hb.tail hl
      rcases hl with h | h
      · exact Or.inl ((hi.pairs _).2 ⟨h, hb, hc⟩)
      · exact Or.inr ((hi.pairs _).2 ⟨h, hc, hb⟩)
  have hconn : ∀ a ∈ s.nodes, ∀ b ∈ s.nodes, WConn s.pairs a b := fun a ha b hb => (hlift a ha).symm.trans (hlift b hb)
  have hac' : Acyclic s.pairs := hac.mono fun e he => ((hi.pairs e).1 he).1
  obtain ⟨net, hn⟩ := (init_accepts_iff (S := S) (K := K) hE).1.2 ⟨hconn, hac'⟩
  obtain ⟨h1, -, -, h2⟩ := init_nodes_partial hE hn
  refine ⟨hE, net, hn, h1, fun hne => h2 fun hl => ?_⟩
  obtain ⟨a, ha⟩ := List.length_eq_one_iff.1 hl
  obtain ⟨p, hp⟩ := List.exists_mem_of_ne_nil _ hne
  obtain ⟨k1, k2⟩ := hE.edges_mem p hp
  rw [ha, List.mem_singleton] at k1 k2
  have hp' : (a, a) ∈ s.pairs := by
    have : p = (a, a) := Prod.ext k1 k2
    rwa [← this]
  exact hac' a (.single hp')

/-- **C123**: from a structure to a network.  After any history of edits, if the edges have weights (or there is no cycle):
`threshold_till_dag` succeeds, `get_largest_subgraph` then succeeds, and unless no edge is left, the constructor
`BayesianNetwork` accepts the result; the network has exactly the nodes and edges of one whole connected component of the acyclic graph.
The same holds for `get_target_subgraph` of any node that still has an edge. -/
theorem structure_to_network (ops : List (Op V)) (visE : Visit (EdgeRec V)) (visC : Visit (List V))
    (hw : Weighted (run SM.empty ops) ∨ Acyclic (run SM.empty ops).pairs) :
    ∃ g r, Structure.thresholdTillDag visE (run SM.empty ops) = .ok g ∧ Structure.getLargestSubgraph visC g = .ok r ∧
      g.nodes = (run SM.empty ops).nodes ∧ (∀ p ∈ g.pairs, p ∈ (run SM.empty ops).pairs) ∧
      (r = none ↔ g.pairs = []) ∧
      (∀ s, r = some s → IsStructure s.nodes s.pairs ∧ s.pairs ≠ [] ∧ ∃ net : Net V S K, init s.nodes s.pairs = .ok net ∧
        ∃ v ∈ g.nodes, (∀ u, u ∈ net.nodes ↔ WConn g.pairs v u) ∧
          ∀ a b, (a, b) ∈ net.edges ↔ (a, b) ∈ g.pairs ∧ WConn g.pairs v a) ∧
      (∀ t ∈ g.nodes, (∃ u, Link g.pairs t u) → ∃ s, Structure.getTargetSubgraph g t = .ok s ∧
        ∃ net : Net V S K, init s.nodes s.pairs = .ok net ∧
          (∀ u, u ∈ net.nodes ↔ WConn g.pairs t u) ∧
          ∀ a b, (a, b) ∈ net.edges ↔ (a, b) ∈ g.pairs ∧ WConn g.pairs t a) := by
  obtain ⟨hwf, ho⟩ := Structure.reachable_wf ops
  obtain ⟨c1, -, c3⟩ := Structure.C06_threshold_till_dag visE hwf
  obtain ⟨g, hg, hnodes, hsub, hac⟩ : ∃ g, Structure.thresholdTillDag visE (run SM.empty ops) = .ok g ∧
      g.nodes = (run SM.empty ops).nodes ∧ g.edges.Sublist (run SM.empty ops).edges ∧ Acyclic g.pairs := by
    rcases hw with hw | hw
    · obtain ⟨g, h1, h2, h3, h4, -⟩ := c3 hw
      exact ⟨g, h1, h2, h3, h4⟩
    · exact ⟨_, c1 hw, rfl, List.Sublist.refl _, hw⟩
  have hgrun : run SM.empty (ops ++ [.tillDag visE]) = g := by
    unfold run
    rw [List.foldl_append]
    change Structure.step (run SM.empty ops) _ = g
    simp only [Structure.step, Structure.exec, hg]
  have hgwf : Structure.WF g ∧ Structure.HasOrigins g := hgrun ▸ Structure.reachable_wf (ops ++ [.tillDag visE])
  have hends := hgwf.1.ends'
  have step1 : ∀ (op : Op V) (s : SM V), Structure.exec g op = .ok s → Structure.WF s := by
    intro op s hs
    have := (Structure.reachable_wf (ops ++ [.tillDag visE, op])).1
    have he : run SM.empty (ops ++ [.tillDag visE, op]) = s := by
      have : ops ++ [Op.tillDag visE, op] = (ops ++ [.tillDag visE]) ++ [op] := by simp
      rw [this]
      unfold run
      rw [List.foldl_append]
      change Structure.step (run SM.empty (ops ++ [.tillDag visE])) op = s
      rw [hgrun]
      simp only [Structure.step, hs]
    rwa [he] at this
  have memV : ∀ {v u}, v ∈ g.nodes → WConn g.pairs v u → u ∈ g.nodes := by
    intro v u hv hu
    induction hu with
    | refl => exact hv
    | tail _ hl _ => exact hl.elim (fun h => (hends _ h).2) fun h => (hends _ h).1
  have key : ∀ (s : SM V) (v : V), v ∈ g.nodes → Structure.WF s → Induced g s (WConn g.pairs v) → s.pairs ≠ [] →
      ∃ net : Net V S K, init s.nodes s.pairs = .ok net ∧ (∀ u, u ∈ net.nodes ↔ WConn g.pairs v u) ∧
          ∀ a b, (a, b) ∈ net.edges ↔ (a, b) ∈ g.pairs ∧ WConn g.pairs v a := by
    intro s v hv hs hi hne
    obtain ⟨-, net, h1, h2, h3⟩ := component_accepted (S := S) (K := K) hs hends hac hi
    refine ⟨net, h1, fun u => ?_, fun a b => ?_⟩
    · rw [h3 hne, hi.nodes]
      exact ⟨fun h => h.2, fun h => ⟨memV hv h, h⟩⟩
    · rw [h2, hi.pairs]
      exact ⟨fun h => ⟨h.1, h.2.1⟩, fun h => ⟨h.1, h.2, h.2.tail (Or.inl h.1)⟩⟩
  obtain ⟨r, hr, hnone, hsome⟩ := Structure.C04_largest_subgraph visC hgwf.1 hgwf.2
  refine ⟨g, r, hg, hr, hnodes, fun p hp => ?_, ?_, fun s hs => ?_, fun t ht hlink => ?_⟩
  · exact (hsub.map EdgeRec.pair).subset hp
  · rw [hnone, SM.pairs, List.map_eq_nil_iff]
  · subst hs
    obtain ⟨⟨v, hv, hi⟩, hmax⟩ := hsome s rfl
    have hne : s.pairs ≠ [] := by
      intro h0
      have h0' : s.edges = [] := List.map_eq_nil_iff.1 h0
      have hge : g.edges ≠ [] := fun h => absurd (hnone.2 h) (by simp)
      obtain ⟨e, he⟩ := List.exists_mem_of_ne_nil _ hge
      have hew := (hgwf.1.ends e he)
      have := hmax e.src hew.1 (Graph.component g.nodes g.pairs e.src) (Graph.mem_component hends hew.1)
      rw [h0', List.length_nil, Nat.le_zero, List.length_eq_zero_iff, List.filter_eq_nil_iff] at this
      refine this e he ?_
      simp only [Bool.and_eq_true, decide_eq_true_eq]
      refine ⟨(Graph.mem_component hends hew.1 _).2 .refl, (Graph.mem_component hends hew.1 _).2 (.single (Or.inl ?_))⟩
      exact List.mem_map_of_mem (f := EdgeRec.pair) he
    have hs : Structure.WF s := step1 (.largest visC) s (by simp [Structure.exec, hr])
    obtain ⟨net, h1, h2⟩ := key s v hv hs hi hne
    exact ⟨⟨hs.nodesNodup, hs.pairsNodup, hs.ends'⟩, hne, net, h1, v, hv, h2⟩
  · obtain ⟨s, hs, hi⟩ := (Structure.C05_target_subgraph hgwf.1 hgwf.2 t).2 ht
    have hne : s.pairs ≠ [] := by
      obtain ⟨u, hu⟩ := hlink
      intro h0
      rcases hu with h | h
      · have := (hi.pairs (t, u)).2 ⟨h, .refl, .single (Or.inl h)⟩
        rw [h0] at this
        simp at this
      · have := (hi.pairs (u, t)).2 ⟨h, .single (Or.inr h), .refl⟩
        rw [h0] at this
        simp at this
    obtain ⟨net, h1, h2⟩ := key s t ht (step1 (.target t) s hs) hi hne
    exact ⟨s, hs, net, h1, h2⟩

end

/-! ### The order of the steps matters -/

namespace PipelineWitness

/-- A history: a cycle of two strong edges, a weak edge to a third node. -/
def ops : List (Op ℕ) := [.addWeightedEdgesFrom [(1, 2, 3), (2, 1, 2), (2, 3, 1)] "weight" "learned" []]

/-- Any order of visiting will do. -/
def visE : Visit (EdgeRec ℕ) := ⟨id, List.Perm.refl⟩

/-- Any order of visiting will do. -/
def visC : Visit (List ℕ) := ⟨id, List.Perm.refl⟩

/-- The history meets the hypothesis of `structure_to_network`. -/
theorem weighted : Weighted (run SM.empty ops) := by
  have h : (run SM.empty ops).edges.all (fun e => (Structure.weightOf e).isSome) = true := by decide +kernel
  intro e he
  exact Option.isSome_iff_exists.1 (List.all_eq_true.1 h e he)

/-- **C123**: the other order, first the largest subgraph and then `threshold_till_dag`, can give a structure that the constructor
rejects as disconnected: the weak edge is deleted before the cycle is broken. -/
theorem other_order_rejected :
    (do let r ← Structure.getLargestSubgraph visC (run SM.empty ops)
        let g ← Structure.thresholdTillDag visE (r.getD SM.empty)
        return (init g.nodes g.pairs : Except Err (Net ℕ ℚ ℚ)).toOption.isSome) = .ok false ∧
    (do let g ← Structure.thresholdTillDag visE (run SM.empty ops)
        let r ← Structure.getLargestSubgraph visC g
        return (init (r.getD SM.empty).nodes (r.getD SM.empty).pairs : Except Err (Net ℕ ℚ ℚ)).toOption.isSome) = .ok true := by
  decide +kernel

end PipelineWitness

section
variable {V S K : Type} [LinearOrder V] [LinearOrder S] [Field K] [LinearOrder K] [IsStrictOrderedRing K]

omit [LinearOrder K] [IsStrictOrderedRing K] in
theorem dataMass_congr {a : FitArgs K} {net net' : Net V S K} (hn : net.nodes = net'.nodes) (hs : ∀ v, statesOf net v = statesOf net' v)
    (df : DF V S) (par : V → List V) (x₀ : V → S) (A : (V → S) → Prop) [DecidablePred A] :
    dataMass a net df par x₀ A = dataMass a net' df par x₀ A := by
  have hs' : statesOf net = statesOf net' := funext hs
  have hobs : ∀ v l s ps, observed net df v l s ps = observed net' df v l s ps := by
    intro v l s ps
    unfold observed
    apply List.countP_congr
    intro r _
    rw [decide_eq_true_eq, decide_eq_true_eq, Known, Known, hn, hs']
  unfold dataMass
  have hj : dataJoint a net df par = dataJoint a net' df par := by
    funext x
    unfold dataJoint
    rw [hn, hs']
    congr 1
    apply List.map_congr_left
    intro v _
    congr 1
    funext s
    exact hobs ..
  rw [hj, hn, hs']

/-- **C123**: from a network to answers.  For every structure with an edge that the constructor accepts, and every data frame with a
column for each node, no missing values and at least one row, `fit_node_states_and_cpds` with acceptable arguments succeeds, the inference
engine is created if it accepts the names, and a query whose evidence occurs together in some row of the data gives the exact conditional
probabilities of the estimated distribution.  In particular (no evidence) the marginals are always available. -/
theorem network_to_answers {int : ℕ → S} (hint : Injective int) {uniq : List (Option S) → List (Option S)} (hu : ListsValues uniq)
    {ns : List V} {E : List (V × V)} (hE : IsStructure ns E) (hEne : E ≠ []) {net : Net V S K} (hi : init ns E = .ok net)
    {h : Heap V S} {ref : ℕ} {df : DF V S} (hdf : h[ref]? = some df) (hc : df.cols.Nodup) (hcols : ∀ v ∈ net.nodes, v ∈ df.cols)
    (hnull : ∀ c ∈ df.cols, ∀ r ∈ df.rows, r c ≠ none) (hrows : df.rows ≠ [])
    {a : FitArgs K} (ha : GoodArgs a) (hess : ∀ n, a.ess = some n → 0 < n)
    {par : V → List V} (hpar : ∀ v ∈ net.nodes, IsParentList E v (par v))
    {nd : BBN.Nondet V} (hnd : nd.Legal) {okName : V → Bool} (hok : ∀ v ∈ net.nodes, okName v = true) :
    ∃ net' h' tables e, fitNodeStatesAndCpds int uniq net h ref a = (net', h', .ok ()) ∧ h <+: h' ∧
      net'.nodes = net.nodes ∧ net'.edges = E ∧
      (∀ v ∈ net.nodes, ∀ s, s ∈ statesOf net' v ↔ ∃ r ∈ df.rows, r v = some s) ∧
      cpds net' = .ok tables ∧ BBN.Engine.create okName (framesOf tables) = .ok e ∧
      ∀ ev : List (V × S), (ev.map Prod.fst).Nodup → (∀ q ∈ ev, q.1 ∈ net.nodes) →
        (∃ r ∈ df.rows, ∀ q ∈ ev, r q.1 = some q.2) →
        ∃ out, e.query nd ev = .ok out ∧
          ∀ x₀ : V → S, (∀ v ∈ net.nodes, x₀ v ∈ statesOf net' v) →
            dataMass a net' df par x₀ (fun _ => True) = 1 ∧ 0 < dataMass a net' df par x₀ (BBN.Agrees ev) ∧
            BBN.Reports (statesOf net') net.nodes
              (fun v s => dataMass a net' df par x₀ (fun x => BBN.Agrees ev x ∧ x v = s) /
                dataMass a net' df par x₀ (BBN.Agrees ev)) out := by
  have hr : Reach int ns E net := .init hi
  obtain ⟨net', h', res, hf, hpre, hcase⟩ := fit_node_states_and_cpds_correct hint hu hE hr hdf hc hrows a
  rcases hcase with ⟨⟨v, hv, hv'⟩, -⟩ | ⟨-, ⟨c, hcm, r, hrm, h0⟩, -⟩ | ⟨-, -, hn, he, hst, hcase⟩
  · exact absurd (hcols v hv) hv'
  · exact absurd h0 (hnull c hcm r hrm)
  rcases hcase with ⟨h0, -⟩ | ⟨-, rfl, -⟩
  · exact absurd ha h0
  have hf' := hf
  unfold fitNodeStatesAndCpds at hf'
  rw [hdf] at hf'
  dsimp only at hf'
  rcases fit_node_states_correct hu net df hc with ⟨⟨v, hv, hv'⟩, -⟩ | ⟨-, ⟨c, hcm, r, hrm, h0⟩, -⟩ | ⟨-, -, net₁, states, h3, h4, h5, -, -, -, h9⟩
  · exact absurd (hcols v hv) hv'
  · exact absurd h0 (hnull c hcm r hrm)
  rw [h3] at hf'
  dsimp only at hf'
  have hr₁ : Reach int ns E net₁ := by
    refine Reach.states hr ?_ ?_ h3
    · rw [List.map_map]
      simpa [comp_def] using hc
    · intro q hq
      obtain ⟨c, -, rfl⟩ := List.mem_map.1 hq
      exact (hu _).1
  have hE' : net.edges = E := (init_nodes_partial hE hi).1
  have hrow : ∀ r ∈ df.rows, ∀ v ∈ net.nodes, ∃ s, r v = some s ∧ s ∈ statesOf net₁ v := by
    intro r hrm v hv
    obtain ⟨-, -, k, -⟩ := h9 v (hcols v hv)
    cases hx : r v with
    | none => exact absurd hx (hnull v (hcols v hv) r hrm)
    | some s => exact ⟨s, rfl, (k s).2 ⟨r, hrm, hx⟩⟩
  obtain ⟨r₀, hr₀⟩ := List.exists_mem_of_ne_nil _ hrows
  have hne : ∀ v ∈ net₁.nodes, statesOf net₁ v ≠ [] := by
    intro v hv h0
    obtain ⟨s, -, hs⟩ := hrow r₀ hr₀ v (h5 ▸ hv)
    rw [h0] at hs
    simp at hs
  obtain ⟨-, -, hso, -⟩ := fit_cpds_correct hint hE hr₁ hne hdf hf'
  have hpar₁ : ∀ v ∈ net₁.nodes, IsParentList E v (par v) := fun v hv => hpar v (h5 ▸ hv)
  obtain ⟨tables, e, k1, k2, k3⟩ := fit_then_query hint hE hEne hr₁ hne hdf hess hf' hpar₁ hnd
    (okName := okName) (fun v hv => hok v (h5 ▸ hv))
  have hmass : ∀ (x₀ : V → S) (A : (V → S) → Prop) [DecidablePred A], dataMass a net' df par x₀ A = dataMass a net₁ df par x₀ A :=
    fun x₀ A _ => dataMass_congr (by rw [hn, h5]) hso df par x₀ A
  have hso' : statesOf net' = statesOf net₁ := funext hso
  have hnodes := (hr.wf hE).nodes
  have hpn : ∀ v ∈ net₁.nodes, ∀ p ∈ par v, p ∈ net₁.nodes := by
    intro v hv p hp
    rw [h5, hnodes]
    exact mem_nodesOfEdges.2 ⟨(p, v), ((hpar v (h5 ▸ hv)).2 p).1 hp, Or.inl rfl⟩
  refine ⟨net', h', tables, e, hf, hpre, hn, by rw [he, hE'], fun v hv => hst v (hcols v hv), k1, k2, ?_⟩
  intro ev hev1 hev2 hocc
  have hpos : ∀ x₀ : V → S, 0 < dataMass a net₁ df par x₀ (BBN.Agrees ev) := by
    intro x₀
    obtain ⟨r, hrm, hag⟩ := hocc
    have hk : Known net₁ r := by
      intro u hu'
      obtain ⟨s, h1, h2⟩ := hrow r hrm u (h5 ▸ hu')
      exact ⟨s, h2, h1⟩
    have := seen_possible (a := a) hess (net := net₁) (df := df) (par := par) hpn (x₀ := x₀) hrm hk (l := ev.map Prod.fst)
      (fun p hp => by
        obtain ⟨q, hq, rfl⟩ := List.mem_map.1 hp
        rw [h5]
        exact hev2 q hq) (ps := ev.map Prod.snd) (by
        rw [List.map_map, List.map_map]
        exact List.map_congr_left fun q hq => hag q hq)
    rwa [← List.zip_of_prod (l := ev.map Prod.fst) (l' := ev.map Prod.snd) rfl rfl] at this
  have hevs : ∀ q ∈ ev, q.1 ∈ net₁.nodes ∧ q.2 ∈ statesOf net₁ q.1 := by
    obtain ⟨r, hrm, hag⟩ := hocc
    intro q hq
    obtain ⟨s, h1, h2⟩ := hrow r hrm q.1 (hev2 q hq)
    rw [hag q hq] at h1
    cases h1
    exact ⟨h5 ▸ hev2 q hq, h2⟩
  obtain ⟨x₁, hx₁⟩ : ∃ x₁ : V → S, ∀ v ∈ net₁.nodes, x₁ v ∈ statesOf net₁ v := by
    obtain ⟨v₀, hv₀⟩ : ∃ v, v ∈ net.nodes := by
      obtain ⟨p, hp⟩ := List.exists_mem_of_ne_nil _ hEne
      exact ⟨p.1, by rw [hnodes]; exact mem_nodesOfEdges.2 ⟨p, hp, Or.inl rfl⟩⟩
    obtain ⟨d, -, -⟩ := hrow r₀ hr₀ v₀ hv₀
    refine ⟨fun v => (r₀ v).getD d, fun v hv => ?_⟩
    obtain ⟨s, h1, h2⟩ := hrow r₀ hr₀ v (h5 ▸ hv)
    dsimp only
    rw [h1]
    exact h2
  obtain ⟨out, ho, -⟩ := (k3 x₁ hx₁).2 ev hev1 hevs (hpos x₁)
  refine ⟨out, ho, fun x₀ hx₀ => ?_⟩
  have hx₀' : ∀ v ∈ net₁.nodes, x₀ v ∈ statesOf net₁ v := by
    intro v hv
    rw [← hso]
    exact hx₀ v (h5 ▸ hv)
  obtain ⟨m1, m2⟩ := k3 x₀ hx₀'
  obtain ⟨out', ho', hrep⟩ := m2 ev hev1 hevs (hpos x₀)
  rw [ho] at ho'
  cases ho'
  refine ⟨by rw [hmass]; exact m1, by rw [hmass]; exact hpos x₀, ?_⟩
  rw [hso', ← h5]
  simp only [hmass]
  exact hrep

/-- **C123**: from any history of edits of a weighted structure to answers, through `threshold_till_dag`, `get_largest_subgraph`,
`BayesianNetwork`, `fit_node_states_and_cpds`, `InferenceEngine` and `query`: with data that has a column for every node of the structure,
at least one row and no missing values, acceptable arguments and acceptable names, nothing raises, unless no edge is left, and all evidence
that occurs in the data is answered exactly. -/
theorem structure_to_answers (ops : List (Op V)) (visE : Visit (EdgeRec V)) (visC : Visit (List V)) (hw : Weighted (run SM.empty ops))
    {int : ℕ → S} (hint : Injective int) {uniq : List (Option S) → List (Option S)} (hu : ListsValues uniq)
    {h : Heap V S} {ref : ℕ} {df : DF V S} (hdf : h[ref]? = some df) (hc : df.cols.Nodup)
    (hcols : ∀ v ∈ (run SM.empty ops).nodes, v ∈ df.cols)
    (hnull : ∀ c ∈ df.cols, ∀ r ∈ df.rows, r c ≠ none) (hrows : df.rows ≠ [])
    {a : FitArgs K} (ha : GoodArgs a) (hess : ∀ n, a.ess = some n → 0 < n)
    {nd : BBN.Nondet V} (hnd : nd.Legal) {okName : V → Bool} (hok : ∀ v ∈ (run SM.empty ops).nodes, okName v = true) :
    ∃ g r, Structure.thresholdTillDag visE (run SM.empty ops) = .ok g ∧ Structure.getLargestSubgraph visC g = .ok r ∧
      (r = none ↔ g.pairs = []) ∧
      ∀ s, r = some s → ∀ par : V → List V, (∀ v ∈ s.nodes, IsParentList s.pairs v (par v)) → ∃ (net net' : Net V S K) (h' : Heap V S) (tables : List (V × Table V S K)) (e : BBN.Engine V S K),
        init s.nodes s.pairs = .ok net ∧ (∀ v, v ∈ net'.nodes ↔ v ∈ s.nodes) ∧ net'.edges = s.pairs ∧
        fitNodeStatesAndCpds int uniq net h ref a = (net', h', .ok ()) ∧ h <+: h' ∧ cpds net' = .ok tables ∧
        BBN.Engine.create okName (framesOf tables) = .ok e ∧
        ∀ ev : List (V × S), (ev.map Prod.fst).Nodup → (∀ q ∈ ev, q.1 ∈ s.nodes) →
          (∃ r ∈ df.rows, ∀ q ∈ ev, r q.1 = some q.2) →
          ∃ out, e.query nd ev = .ok out ∧
            ∀ x₀ : V → S, (∀ v ∈ s.nodes, x₀ v ∈ statesOf net' v) →
              BBN.Reports (statesOf net') net'.nodes
                (fun v s => dataMass a net' df par x₀ (fun x => BBN.Agrees ev x ∧ x v = s) /
                  dataMass a net' df par x₀ (BBN.Agrees ev)) out := by
  obtain ⟨g, r, h1, h2, h3, hp, h4, h5, -⟩ := structure_to_network (S := S) (K := K) ops visE visC (Or.inl hw)
  refine ⟨g, r, h1, h2, h4, fun s hs par hpar => ?_⟩
  obtain ⟨hE, hne, net, hi, v, hv, hn, -⟩ := h5 s hs
  obtain ⟨i1, -, i3, i4⟩ := init_nodes_partial hE hi
  have hmem : ∀ u, u ∈ net.nodes ↔ u ∈ s.nodes := by
    refine i4 fun hl => ?_
    obtain ⟨x, hx⟩ := List.length_eq_one_iff.1 hl
    obtain ⟨p, hp⟩ := List.exists_mem_of_ne_nil _ hne
    obtain ⟨k1, k2⟩ := hE.edges_mem p hp
    rw [hx, List.mem_singleton] at k1 k2
    have hp' : (x, x) ∈ s.pairs := by
      have : p = (x, x) := Prod.ext k1 k2
      rwa [← this]
    exact ((init_accepts_iff (S := S) (K := K) hE).1.1 ⟨net, hi⟩).2 x (.single hp')
  have hsub : ∀ u ∈ net.nodes, u ∈ (run SM.empty ops).nodes := by
    intro u hu'
    have hgw := (hn u).1 hu'
    have hends := (Structure.reachable_wf ops).1.ends'
    induction hgw with
    | refl => exact h3 ▸ hv
    | tail _ hl _ => exact hl.elim (fun h => (hends _ (hp _ h)).2) fun h => (hends _ (hp _ h)).1
  obtain ⟨net', h', tables, e, k1, k2, k3, k4, -, k5, k6, k7⟩ := network_to_answers hint hu hE hne hi hdf hc
    (fun v hv => hcols v (hsub v hv)) hnull hrows ha hess (fun v hv => hpar v ((hmem v).1 hv)) hnd (fun v hv => hok v (hsub v hv))
  refine ⟨net, net', h', tables, e, hi, fun v => by rw [k3, hmem], k4, k1, k2, k5, k6, fun ev e1 e2 e3 => ?_⟩
  obtain ⟨out, o1, o2⟩ := k7 ev e1 (fun q hq => (hmem _).2 (e2 q hq)) e3
  refine ⟨out, o1, fun x₀ hx₀ => ?_⟩
  rw [k3]
  exact (o2 x₀ fun v hv => hx₀ v ((hmem v).1 hv)).2.2

end

namespace PipelineWitness

/-- C123 (first part) applies to the history above. -/
example := structure_to_network (S := ℚ) (K := ℚ) ops visE visC (Or.inl weighted)

/-- A history with the nodes of the data in `Witness`: a cycle of two edges. -/
def ops' : List (Op ℕ) := [.addWeightedEdgesFrom [(0, 1, 3), (1, 0, 2)] "weight" "learned" []]

/-- C123 applies to this history and the data frame in `Witness`. -/
example := structure_to_answers (K := ℚ) ops' visE visC (by
    have h : (run SM.empty ops').edges.all (fun e => (Structure.weightOf e).isSome) = true := by decide +kernel
    intro e he
    exact Option.isSome_iff_exists.1 (List.all_eq_true.1 h e he))
  Witness.int_injective Witness.dedup_lists (h := [Witness.df]) (ref := 0) (df := Witness.df) rfl (by decide) (by decide +kernel)
  (by decide) (by decide) (a := {}) (Or.inl rfl) (by simp) BBN.exNd_legal (okName := fun _ => true) (by simp)

end PipelineWitness

end Verif.Network
