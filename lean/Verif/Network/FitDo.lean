import Verif.Network.EquivalentDo

/-!
# C149: from data to the answers under interventions
-/

namespace Verif.Network

open Verif.BBN (Frame Fitted netNodes cpdsOf domOf arrows Dist Engine)
open Function

section
variable {V S K : Type} [LinearOrder V] [LinearOrder S] [Field K] [LinearOrder K] [IsStrictOrderedRing K]

/-- Specification: the calls `do_intervention(v, d)`, written `(v, some d)`, and `reset_do(v)`, written `(v, none)`, are made one after the other, and
none of them raises. -/
inductive Acts : Engine V S K → List (V × Option (Dist S K)) → Engine V S K → Prop
  | done (e : Engine V S K) : Acts e [] e
  | set {e e' e'' : Engine V S K} {v : V} {d : Dist S K} {l : List (V × Option (Dist S K))} :
      e.doIntervention v (.dist d) = (e', .ok ()) → Acts e' l e'' → Acts e ((v, some d) :: l) e''
  | reset {e e' e'' : Engine V S K} {v : V} {l : List (V × Option (Dist S K))} :
      e.resetDo v = (e', .ok ()) → Acts e' l e'' → Acts e ((v, none) :: l) e''

omit [LinearOrder S] [Field K] [LinearOrder K] [IsStrictOrderedRing K] in
/-- Specification: what a node is set to after these calls: the last call for the node decides. -/
def inForce (acts : List (V × Option (Dist S K))) (v : V) : Option (Dist S K) := (acts.reverse.lookup v).join

/-- Specification: the joint weight of an assignment.  A node that is set contributes the probability of its state in the distribution it is set to,
any other node its estimate from the data given the states of its parents. -/
def doJoint {K' : Type} (I : V → Option (Dist S K)) (a : FitArgs K) (net : Net V S K') (df : DF V S) (par : V → List V) (x : V → S) : K :=
  (net.nodes.map fun v => match I v with
    | some d => d.val (x v)
    | none => estimate a (statesOf net v) ((par v).map fun p => (statesOf net p).length).prod
        (fun s => observed net df v (par v) s ((par v).map x)) (x v)).prod

/-- Specification: the total weight of the assignments which satisfy `A`. -/
def doMass {K' : Type} (I : V → Option (Dist S K)) (a : FitArgs K) (net : Net V S K') (df : DF V S) (par : V → List V) (x₀ : V → S)
    (A : (V → S) → Prop) [DecidablePred A] : K :=
  BBN.massWith (statesOf net) net.nodes (doJoint I a net df par) x₀ A

/-- Specification: the arrows that are left: those into nodes that are not set. -/
def Left (I : V → Option (Dist S K)) (E : List (V × V)) : List (V × V) := E.filter fun q => (I q.2).isNone

omit [LinearOrder S] [Field K] [LinearOrder K] [IsStrictOrderedRing K] in
theorem inForce_append (l : List (V × Option (Dist S K))) (v : V) (o : Option (Dist S K)) : inForce (l ++ [(v, o)]) = update (inForce l) v o := by
  funext w
  unfold inForce
  rw [List.reverse_append, List.reverse_singleton, List.singleton_append, List.lookup_cons]
  by_cases e : w = v
  · subst e
    simp
  · rw [show (w == v) = false by simpa using e, update_of_ne e]

/-- The calls are accepted exactly if the nodes have the states and the remaining children that are needed, and they leave the engine with the
interventions in force. -/
theorem acts_under {bn : List (V × Frame V S K)} (hb : Fitted bn) {l : List (V × Option (Dist S K))} {e : Engine V S K}
    (h : BBN.Under (inForce l) bn e) (r : List (V × Option (Dist S K))) :
    ((∃ e', Acts e r e') ↔ ∀ m v o k, r = m ++ (v, o) :: k → v ∈ bn.map Prod.fst ∧ ∀ d, o = some d →
      d.IsDist (domOf bn v).toFinset ∧ ∃ w, (v, w) ∈ arrows (netNodes (cpdsOf bn)) ∧ inForce (l ++ m) w = none) ∧
    ∀ e', Acts e r e' → BBN.Under (inForce (l ++ r)) bn e' := by
  induction r generalizing l e with
  | nil =>
    refine ⟨⟨fun _ m v o k hm => ?_, fun _ => ⟨e, .done e⟩⟩, fun e' he => ?_⟩
    · simp at hm
    · cases he
      rw [List.append_nil]
      exact h
  | cons q r ih =>
    obtain ⟨v, o⟩ := q
    have happ : ∀ m : List (V × Option (Dist S K)), l ++ [(v, o)] ++ m = l ++ (v, o) :: m := fun m => by simp
    cases o with
    | none =>
      have hstep : ∀ e', e.resetDo v = (e', .ok ()) ↔ v ∈ bn.map Prod.fst ∧ e' = (e.resetDo v).1 := by
        intro e'
        rcases h.inv.reset_cases hb v with ⟨h1, h2⟩ | ⟨h1, c, e₁, h3, h4, h5, h6⟩
        · rw [h2]
          simp [h1]
        · rw [h4]
          simp only [Prod.mk.injEq, and_true, h1, true_and]
          exact eq_comm
      have hund : v ∈ bn.map Prod.fst → BBN.Under (inForce (l ++ [(v, none)])) bn (e.resetDo v).1 := by
        intro hv
        rcases h.inv.reset_cases hb v with ⟨h1, h2⟩ | ⟨h1, c, e₁, h3, h4, h5, h6⟩
        · exact absurd hv h1
        · rw [h4, inForce_append]
          rw [h.inv.orig_eq] at h3
          exact h.unset h3 h5 h6
      refine ⟨⟨?_, fun hall => ?_⟩, ?_⟩
      · rintro ⟨e'', he⟩ m w o' k hm
        cases he with
        | reset h1 h2 =>
        obtain ⟨hv, rfl⟩ := (hstep _).1 h1
        rcases List.cons_eq_append_iff.1 hm with ⟨rfl, hm'⟩ | ⟨m', rfl, hm'⟩
        · cases hm'
          exact ⟨hv, by simp⟩
        · have := ((ih (hund hv)).1.1 ⟨_, h2⟩) m' w o' k hm'
          rw [happ] at this
          exact this
      · have hv := (hall [] v none r rfl).1
        obtain ⟨e'', he⟩ := (ih (hund hv)).1.2 (by
          intro m' w o' k hm'
          rw [happ]
          exact hall _ w o' k (by rw [hm']; rfl))
        exact ⟨e'', .reset ((hstep _).2 ⟨hv, rfl⟩) he⟩
      · intro e'' he
        cases he with
        | reset h1 h2 =>
        obtain ⟨hv, rfl⟩ := (hstep _).1 h1
        rw [← happ]
        exact (ih (hund hv)).2 _ h2
    | some d =>
      have hpar : BBN.IsParent e.cpds v ↔ ∃ w, (v, w) ∈ arrows (netNodes (cpdsOf bn)) ∧ inForce l w = none := by
        rw [h.isParent hb]
        refine exists_congr fun w => ?_
        rw [h.arrow hb, and_comm]
      have hcond : (∃ e', e.doIntervention v (.dist d) = (e', .ok ()) ∧ BBN.Under (inForce (l ++ [(v, some d)])) bn e') ∨
          (∃ err, e.doIntervention v (.dist d) = (e, .error err)) ∧ ¬ (v ∈ bn.map Prod.fst ∧ d.IsDist (domOf bn v).toFinset ∧ BBN.IsParent e.cpds v) := by
        rcases h.inv.do_cases hb v (.dist d) with ⟨err, e1, -, e3⟩ | ⟨d', c', e', k1, k2, k3, k4, k5, k6, k7⟩
        · refine Or.inr ⟨⟨err, e1⟩, fun ⟨hv, hd, hp⟩ => e3 ?_⟩
          obtain ⟨o, ho⟩ := (BBN.lookup_isSome_iff (cpdsOf bn) v).2 (by rw [BBN.cpdsOf_vars]; exact hv)
          refine ⟨hp, d, o, rfl, by rw [h.inv.orig_eq]; exact ho, ?_⟩
          rw [BBN.states_of_lookup hb ho]
          exact hd
        · cases k1
          rw [h.inv.orig_eq] at k2
          refine Or.inl ⟨e', k5, ?_⟩
          rw [inForce_append]
          refine h.set ?_ (by rw [k3.keys, BBN.states_of_lookup hb k2]) k6 k7
          rw [← h.inv.vars]
          exact h.inv.isParent_mem hb k4
      have hcond' : ∀ e', e.doIntervention v (.dist d) = (e', .ok ()) → v ∈ bn.map Prod.fst ∧ d.IsDist (domOf bn v).toFinset ∧ BBN.IsParent e.cpds v := by
        intro e₁ he
        rcases h.inv.do_cases hb v (.dist d) with ⟨err, e1, -, e3⟩ | ⟨d', c', e', k1, k2, k3, k4, k5, k6, k7⟩
        · rw [e1] at he
          cases he
        · cases k1
          rw [h.inv.orig_eq] at k2
          refine ⟨?_, ?_, k4⟩
          · rw [← h.inv.vars]
            exact h.inv.isParent_mem hb k4
          · rw [← BBN.states_of_lookup hb k2]
            exact k3
      have hu : ∀ e', e.doIntervention v (.dist d) = (e', .ok ()) → BBN.Under (inForce (l ++ [(v, some d)])) bn e' := by
        intro e₁ he
        rcases hcond with ⟨e', h1, h2⟩ | ⟨⟨err, h1⟩, -⟩
        · rw [h1] at he
          cases he
          exact h2
        · rw [h1] at he
          cases he
      refine ⟨⟨?_, fun hall => ?_⟩, ?_⟩
      · rintro ⟨e'', he⟩ m w o' k hm
        cases he with
        | set h1 h2 =>
        obtain ⟨hv, hd, hp⟩ := hcond' _ h1
        rcases List.cons_eq_append_iff.1 hm with ⟨rfl, hm'⟩ | ⟨m', rfl, hm'⟩
        · cases hm'
          refine ⟨hv, fun d' hd' => ?_⟩
          cases hd'
          rw [List.append_nil]
          exact ⟨hd, hpar.1 hp⟩
        · have := ((ih (hu _ h1)).1.1 ⟨_, h2⟩) m' w o' k hm'
          rw [happ] at this
          exact this
      · obtain ⟨hv, hd⟩ := hall [] v (some d) r rfl
        obtain ⟨hd, hp⟩ := hd d rfl
        rw [List.append_nil] at hp
        rcases hcond with ⟨e', h1, h2⟩ | ⟨-, h1⟩
        swap
        · exact absurd ⟨hv, hd, hpar.2 hp⟩ h1
        obtain ⟨e'', he⟩ := (ih h2).1.2 (by
          intro m' w o' k hm'
          rw [happ]
          exact hall _ w o' k (by rw [hm']; rfl))
        exact ⟨e'', .set h1 he⟩
      · intro e'' he
        cases he with
        | set h1 h2 =>
        rw [← happ]
        exact (ih (hu _ h1)).2 _ h2

/-- **C149**: from data to the answers under interventions.  For a network fitted to data, calls of `do_intervention` and `reset_do` are accepted one after
the other exactly if each distribution is a distribution over the states of its node, and the node has a child that is not set at that moment.  Then
queries work exactly if the structure without the arrows into nodes that are set is in one piece, and the answers are the conditional probabilities under
the product in which the nodes that are set have the given distributions and all others their estimates from the data. -/
theorem fit_then_do {int : ℕ → S} (hint : Injective int) {ns : List V} {E : List (V × V)} (hE : IsStructure ns E) (hEne : E ≠ [])
    {net net' : Net V S K} (hr : Reach int ns E net) (hne : ∀ v ∈ net.nodes, statesOf net v ≠ []) {h h' : Heap V S} {ref : ℕ} {df : DF V S}
    (hdf : h[ref]? = some df) {a : FitArgs K} (hess : ∀ n, a.ess = some n → 0 < n) (hf : fitCpds int net h ref a = (net', h', .ok ()))
    {par : V → List V} (hpar : ∀ v ∈ net.nodes, IsParentList E v (par v)) {nd : BBN.Nondet V} (hnd : nd.Legal) {okName : V → Bool}
    (hok : ∀ v ∈ net.nodes, okName v = true) {x₀ : V → S} (hx₀ : ∀ v ∈ net.nodes, x₀ v ∈ statesOf net v) :
    ∃ tables e, cpds net' = .ok tables ∧ Engine.create okName (framesOf tables) = .ok e ∧ ∀ acts : List (V × Option (Dist S K)),
      ((∃ e', Acts e acts e') ↔ ∀ before v o after, acts = before ++ (v, o) :: after → v ∈ net.nodes ∧ ∀ d, o = some d →
        d.IsDist (statesOf net v).toFinset ∧ ∃ w, (v, w) ∈ E ∧ inForce before w = none) ∧
      ∀ e', Acts e acts e' →
        ((∀ u ∈ net.nodes, ∀ w ∈ net.nodes, Graph.WConn (Left (inForce acts) E) u w) →
          doMass (inForce acts) a net df par x₀ (fun _ => True) = 1 ∧
          ∀ ev : List (V × S), (ev.map Prod.fst).Nodup → (∀ q ∈ ev, q.1 ∈ net.nodes ∧ q.2 ∈ statesOf net q.1) →
            0 < doMass (inForce acts) a net df par x₀ (BBN.Agrees ev) →
            ∃ out, e'.query nd ev = .ok out ∧ BBN.Reports (statesOf net) net.nodes
              (fun v s => doMass (inForce acts) a net df par x₀ (fun x => BBN.Agrees ev x ∧ x v = s) /
                doMass (inForce acts) a net df par x₀ (BBN.Agrees ev)) out) ∧
        (¬ (∀ u ∈ net.nodes, ∀ w ∈ net.nodes, Graph.WConn (Left (inForce acts) E) u w) →
          ∀ ev : List (V × S), ∃ err, e'.query nd ev = .error err) := by
  have hw := hr.wf hE
  obtain ⟨tables, hc, n1, f1⟩ := fitted_is_network hint hE hEne hr hne hess hf
  have w1 := framesWF hint hE hEne hr hne hf hc
  have hfr : (framesOf tables).map Prod.fst = net.nodes := by rw [← n1, framesOf, List.map_map]; rfl
  obtain ⟨e, he, hinv, hcp⟩ := Engine.create_ok f1 (okName := okName) fun q hq => hok _ (hfr ▸ List.mem_map_of_mem (f := Prod.fst) hq)
  obtain ⟨a1, q1⟩ := fitted_parts hint hE hr hne hdf hf hc
  have hnd1 : net.nodes.Nodup := by rw [hw.nodes]; exact nodesOfEdges_nodup E
  have h0 : BBN.Under (inForce []) (framesOf tables) e := ⟨hinv, fun v _ => by rw [hcp]; rfl, by simp [inForce]⟩
  refine ⟨tables, e, hc, he, fun acts => ?_⟩
  obtain ⟨hacc, hund⟩ := acts_under f1 h0 acts
  refine ⟨?_, fun e' he' => ?_⟩
  · rw [hacc]
    refine forall_congr' fun m => forall_congr' fun v => forall_congr' fun o => forall_congr' fun k => forall_congr' fun _ => ?_
    rw [hfr, List.nil_append]
    refine and_congr_right fun hv => ?_
    rw [w1.dom v hv]
    simp only [a1]
  have hU := hund e' he'
  rw [List.nil_append] at hU
  have hconn : BBN.Connected (netNodes e'.cpds) ↔ ∀ u ∈ net.nodes, ∀ w ∈ net.nodes, Graph.WConn (Left (inForce acts) E) u w := by
    have hl : Graph.Link (arrows (netNodes e'.cpds)) = Graph.Link (Left (inForce acts) E) := by
      funext u v
      refine propext ?_
      unfold Graph.Link Left
      rw [hU.arrow f1, hU.arrow f1, a1, a1, List.mem_filter, List.mem_filter]
      simp only [Option.isNone_iff_eq_none]
      tauto
    unfold BBN.Connected Graph.WConn
    rw [hl, BBN.netNodes_vars, hU.inv.vars, hfr]
  refine ⟨fun hC => ?_, fun hC ev => hU.inv.query_disconnected hnd f1 (fun h' => hC (hconn.1 h')) ev⟩
  have hC' := hconn.2 hC
  have hx₀' : ∀ v ∈ (framesOf tables).map Prod.fst, x₀ v ∈ domOf (framesOf tables) v := by
    intro v hv
    rw [hfr] at hv
    rw [w1.dom v hv]
    exact hx₀ v hv
  have hM : ∀ (A : (V → S) → Prop) [DecidablePred A], BBN.massOf (domOf (framesOf tables)) (netNodes e'.cpds) x₀ A =
      doMass (inForce acts) a net df par x₀ A := by
    intro A _
    have hn : (e'.cpds.map Prod.fst).Nodup := by rw [hU.inv.vars]; exact f1.nodup
    unfold doMass
    rw [BBN.massOf_eq_sumOver, BBN.massWith_eq_sumOver, BBN.netNodes_vars, hU.inv.vars, hfr,
      BBN.sumOver_dom (dom := statesOf net) fun v hv => by rw [w1.dom v hv]]
    refine BBN.sumOver_congr_on _ _ fun x _ hx => ?_
    congr 1
    rw [BBN.joint_eq_lookup hn, hU.inv.vars, hfr]
    unfold doJoint
    congr 1
    refine List.map_congr_left fun v hv => ?_
    rw [hU.each v (by rw [hfr]; exact hv)]
    cases hI : inForce acts v with
    | some d =>
      have hk := (hU.dists v d hI).2
      rw [w1.dom v hv] at hk
      change (if x v ∈ d.keys then d.val (x v) else 0) = d.val (x v)
      rw [if_pos (by rw [hk, List.mem_toFinset]; exact hx v hv)]
    | none =>
      have := q1 v hv x hx
      unfold BBN.factorOf at this
      rw [this]
      have hp := hpar v hv
      have hset : parentSet E.toFinset v = (par v).toFinset := by
        ext u
        rw [mem_parentSet, List.mem_toFinset, List.mem_toFinset, hp.2]
      unfold factor
      rw [hset, List.prod_toFinset _ (hp.1.imp fun h => ne_of_lt h)]
      congr 1
      funext s
      unfold observed
      refine List.countP_congr fun r _ => ?_
      simp only [decide_eq_true_eq, List.map_map, List.map_inj_left, List.mem_toFinset, comp_apply]
  refine ⟨?_, fun ev hk hev hpos => ?_⟩
  · rw [← hM]
    have hN := hU.inv.network f1 hC'
    rw [hU.inv.dom_eq] at hN
    obtain ⟨dom', h, hd, hx'⟩ := BBN.exists_total_dom hN.states_nodup (x₀ := x₀) (by rw [BBN.netNodes_vars, hU.inv.vars]; exact hx₀')
    rw [← BBN.massOf_dom_congr h]
    exact BBN.massOf_total hN.wf hN.acyclic (hN.congr h).normalised hx'
  · obtain ⟨out, ho, hrep⟩ := hU.inv.query_answers hnd f1 hC' hx₀' hk (by
      intro p hp
      obtain ⟨p1, p2⟩ := hev p hp
      rw [hfr, w1.dom _ p1]
      exact ⟨p1, p2⟩)
    refine ⟨out, ho, ?_⟩
    simp only [hM] at hrep
    rw [hfr] at hrep
    refine ⟨hrep.vars, fun q hq => ?_, hrep.probs⟩
    rw [← w1.dom q.1 (by rw [← hrep.vars]; exact List.mem_map_of_mem hq)]
    exact hrep.states q hq

end

end Verif.Network
