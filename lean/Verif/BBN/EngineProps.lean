import Verif.BBN.EngineInv
import Verif.BBN.Ancestral
import Verif.BBN.SpecDo
import Mathlib.Tactic.FinCases

/-!
# C23–C27: interventions, resets and queries of the inference engine
-/

namespace Verif.BBN
open Function

section
variable {V S K : Type} [LinearOrder V] [DecidableEq S] [Field K] [LinearOrder K]
  [IsStrictOrderedRing K]

/-- `e` is what some history of operations leaves of an engine built from the network `bn`. -/
def Reach (nd : Nondet V) (bn : List (V × Frame V S K)) (e : Engine V S K) : Prop :=
  ∃ okName e₀ ops, Engine.create okName bn = .ok e₀ ∧ e = e₀.run nd ops

theorem Engine.create_inv {bn : List (V × Frame V S K)} (hf : Fitted bn) {okName : V → Bool}
    {e : Engine V S K} (h : Engine.create okName bn = .ok e) : e.Inv bn ∧ e.cpds = cpdsOf bn := by
  have hn : ∀ q ∈ bn, okName q.1 = true := by
    by_contra hc
    push Not at hc
    obtain ⟨q, hq, hne⟩ := hc
    unfold Engine.create at h
    rw [if_pos (List.any_eq_true.2 ⟨q, hq, by simpa using hne⟩)] at h
    cases h
  obtain ⟨e', h1, h2, h3⟩ := Engine.create_ok hf hn
  rw [h1] at h
  cases h
  exact ⟨h2, h3⟩

theorem Reach.inv {nd : Nondet V} {bn : List (V × Frame V S K)} {e : Engine V S K}
    (h : Reach nd bn e) (hf : Fitted bn) : e.Inv bn := by
  obtain ⟨okName, e₀, ops, h1, rfl⟩ := h
  exact (Engine.create_inv hf h1).1.run hf nd ops

/-! ### Queries of a reachable engine -/

omit [DecidableEq S] [Field K] [LinearOrder K] [IsStrictOrderedRing K] in
theorem allStates_filter {dom : V → List S} {nodes : List (Node V S K)}
    (hnd : (nodes.map Node.var).Nodup) {v : V} (hv : v ∈ nodes.map Node.var) :
    ((allStates dom nodes).filter fun q => q.1 = v).map Prod.snd = dom v := by
  have hself : ∀ (u : V), (((dom u).map fun s => (u, s)).filter fun q => q.1 = v) =
      if u = v then (dom u).map fun s => (u, s) else [] := by
    intro u
    split
    · rename_i h
      rw [List.filter_eq_self]
      intro q hq
      obtain ⟨s, _, rfl⟩ := List.mem_map.1 hq
      simpa using h
    · rename_i h
      rw [List.filter_eq_nil_iff]
      intro q hq
      obtain ⟨s, _, rfl⟩ := List.mem_map.1 hq
      simpa using h
  have hnone : ∀ l : List (Node V S K), v ∉ l.map Node.var →
      ((allStates dom l).filter fun q => q.1 = v) = [] := by
    intro l hl
    rw [List.filter_eq_nil_iff]
    intro q hq
    obtain ⟨n, hn, hq⟩ := List.mem_flatMap.1 hq
    obtain ⟨s, _, rfl⟩ := List.mem_map.1 hq
    have : n.var ≠ v := fun h => hl (h ▸ List.mem_map_of_mem hn)
    simpa using this
  induction nodes with
  | nil => simp at hv
  | cons n nodes ih =>
    rw [List.map_cons, List.nodup_cons] at hnd
    have hcons : allStates dom (n :: nodes) =
        ((dom n.var).map fun s => (n.var, s)) ++ allStates dom nodes := rfl
    rw [hcons, List.filter_append, hself]
    by_cases h : n.var = v
    · rw [if_pos h, hnone nodes (h ▸ hnd.1)]
      simp [h, Function.comp_def]
    · rw [if_neg h, List.nil_append]
      apply ih hnd.2
      rw [List.map_cons, List.mem_cons] at hv
      exact hv.resolve_left fun h' => h h'.symm

/-- A connected reachable engine answers every query with positive evidence exactly. -/
theorem Engine.Inv.query_reports {nd : Nondet V} (hnd : nd.Legal) {bn : List (V × Frame V S K)}
    {e : Engine V S K} (hi : e.Inv bn) (hf : Fitted bn) (hc : Connected (netNodes e.cpds))
    {x₀ : V → S} (hx₀ : ∀ v ∈ e.cpds.map Prod.fst, x₀ v ∈ e.dom v)
    {ev : List (V × S)} (hk : (ev.map Prod.fst).Nodup)
    (hev : GoodEvidence e.dom (netNodes e.cpds) ev)
    (hpos : 0 < massOf e.dom (netNodes e.cpds) x₀ (Agrees ev)) :
    ∃ out, e.query nd ev = .ok out ∧ Reports e.dom (e.cpds.map Prod.fst)
      (fun v s => massOf e.dom (netNodes e.cpds) x₀ (fun x => Agrees ev x ∧ x v = s) /
        massOf e.dom (netNodes e.cpds) x₀ (Agrees ev)) out := by
  have hp := hi.bbn_perm hf
  have hN : IsNetwork e.dom e.bbn := (hi.network hf hc).perm hp.symm
  have hvm : ∀ v, v ∈ e.bbn.map Node.var ↔ v ∈ e.cpds.map Prod.fst := by
    intro v
    rw [← netNodes_vars]; exact (hp.map Node.var).mem_iff
  have hev' : GoodEvidence e.dom e.bbn ev := fun p hp' =>
    ⟨(hp.map Node.var).mem_iff.2 (hev p hp').1, (hev p hp').2⟩
  obtain ⟨res, h1, h2, h3, _, _⟩ := query_conditional hnd hN (x₀ := x₀)
    (fun v hv => hx₀ v ((hvm v).1 hv)) hk hev' (by rw [massOf_perm hp]; exact hpos)
  refine ⟨_, by unfold Engine.query; rw [h1]; rfl, ?_, ?_, ?_⟩
  · rw [List.map_map]; rfl
  · intro q hq
    obtain ⟨c, hcm, rfl⟩ := List.mem_map.1 hq
    dsimp only
    rw [List.map_map]
    have hv : c.1 ∈ e.bbn.map Node.var := (hvm _).2 (List.mem_map_of_mem hcm)
    have h4 := (h2.filter fun q => decide (q.1 = c.1)).map Prod.snd
    rw [allStates_filter hN.wf.nodup hv] at h4
    rw [List.filter_map, List.map_map] at h4
    exact h4
  · intro q hq r hr
    obtain ⟨c, hcm, rfl⟩ := List.mem_map.1 hq
    obtain ⟨m, hm, rfl⟩ := List.mem_map.1 hr
    obtain ⟨hm1, hm2⟩ := List.mem_filter.1 hm
    have hm2 : m.1.1 = c.1 := of_decide_eq_true hm2
    have := (h3 m.1.1 m.1.2 m.2 hm1).1
    dsimp only
    rw [this, massOf_perm hp, massOf_perm hp, hm2]

/-- A reachable engine whose current network is disconnected answers no query. -/
theorem Engine.Inv.query_disconnected {nd : Nondet V} (hnd : nd.Legal)
    {bn : List (V × Frame V S K)} {e : Engine V S K} (hi : e.Inv bn) (hf : Fitted bn)
    (hc : ¬ Connected (netNodes e.cpds)) (ev : List (V × S)) :
    ∃ err, e.query nd ev = .error err := by
  have hp := hi.bbn_perm hf
  have hw : NodesWF e.bbn := (hi.wf hf).perm hp.symm
  unfold Engine.query Verif.BBN.query
  cases hv : validateKeyvals e.dom e.bbn ev with
  | error err => exact ⟨err, rfl⟩
  | ok u =>
    cases hj : buildJoinTree nd e.bbn with
    | error err => exact ⟨err, rfl⟩
    | ok jt =>
      have := ((join_tree_only_connected hnd hw).1 ⟨jt, hj⟩).2
      exact absurd (this.perm hp) hc

/-! ### The truncated factorisation -/

omit [DecidableEq S] [LinearOrder K] [IsStrictOrderedRing K] in
theorem setCpd_of_notMem {cpds : List (V × Cpd V S K)} {v : V} (h : v ∉ cpds.map Prod.fst)
    (c : Cpd V S K) : setCpd cpds v c = cpds := by
  unfold setCpd
  conv_rhs => rw [← List.map_id cpds]
  apply List.map_congr_left
  intro q hq
  rw [if_neg]
  · rfl
  · rintro rfl
    exact h (List.mem_map_of_mem hq)

omit [LinearOrder K] [IsStrictOrderedRing K] in
theorem joint_truncated {cpds : List (V × Cpd V S K)} (hnd : (cpds.map Prod.fst).Nodup) {v : V}
    (hv : v ∈ cpds.map Prod.fst) (d : Dist S K) (x : V → S) (hx : x v ∈ d.keys) :
    joint (netNodes (setCpd cpds v (interventionCpd V d))) x =
      truncated (netNodes cpds) v d.val x := by
  induction cpds with
  | nil => simp at hv
  | cons q cpds ih =>
    rw [List.map_cons, List.nodup_cons] at hnd
    have hset : setCpd (q :: cpds) v (interventionCpd V d) =
      (if q.1 = v then (v, interventionCpd V d) else q) ::
        setCpd cpds v (interventionCpd V d) := rfl
    rw [hset]
    by_cases h : q.1 = v
    · rw [if_pos h, setCpd_of_notMem (h ▸ hnd.1)]
      have hfil : ((netNodes (q :: cpds)).filter fun n => n.var ≠ v) = netNodes cpds := by
        have h1 : netNodes (q :: cpds) = ⟨cpdFactor q, q.1⟩ :: netNodes cpds := rfl
        rw [h1, List.filter_cons]
        rw [if_neg (by simpa using h)]
        rw [List.filter_eq_self]
        intro n hn
        have : n.var ∈ cpds.map Prod.fst := by rw [← netNodes_vars]; exact List.mem_map_of_mem hn
        have : n.var ≠ v := fun h' => (h ▸ hnd.1) (h' ▸ this)
        simpa using this
      unfold truncated
      rw [hfil]
      simp [netNodes, joint, cpdFactor, interventionCpd, hx]
    · rw [if_neg h]
      rw [List.map_cons, List.mem_cons] at hv
      have := ih hnd.2 (hv.resolve_left fun h' => h h'.symm)
      have h1 : ∀ l : List (V × Cpd V S K), netNodes (q :: l) = ⟨cpdFactor q, q.1⟩ :: netNodes l :=
        fun _ => rfl
      have h2 : ∀ (n : Node V S K) l, joint (n :: l) x = n.fn (n.args.map x) * joint l x :=
        fun n l => by simp [joint]
      rw [h1, h2, this]
      unfold truncated
      rw [h1, List.filter_cons, if_pos (by simpa using h)]
      rw [List.map_cons, List.prod_cons]
      ring

omit [Field K] [LinearOrder K] [IsStrictOrderedRing K] [DecidableEq S] in
theorem worlds_valid {dom : V → List S} {vs : List V} {x y : V → S} (h : y ∈ worlds dom vs x) :
    ∀ v, (v ∈ vs → y v ∈ dom v) ∧ (v ∉ vs → y v = x v) := by
  induction vs generalizing x with
  | nil =>
    simp only [worlds, List.mem_singleton] at h
    subst h
    intro v; simp
  | cons w vs ih =>
    simp only [worlds, List.mem_flatMap] at h
    obtain ⟨s, hs, hy⟩ := h
    intro v
    obtain ⟨h1, h2⟩ := ih hy v
    by_cases hv : v ∈ vs
    · exact ⟨fun _ => h1 hv, fun h => absurd (List.mem_cons_of_mem _ hv) h⟩
    · have := h2 hv
      by_cases hvw : v = w
      · subst hvw
        refine ⟨fun _ => ?_, fun h => absurd List.mem_cons_self h⟩
        rw [this, update_self]; exact hs
      · rw [update_of_ne hvw] at this
        exact ⟨fun h => absurd ((List.mem_cons.1 h).resolve_left hvw) hv, fun _ => this⟩

/-- Probabilities in the network after an intervention are those of the truncated
factorisation. -/
theorem massOf_do {bn : List (V × Frame V S K)} {e : Engine V S K} (hi : e.Inv bn)
    (hf : Fitted bn) {v : V} {d : Dist S K} {c : Cpd V S K} (hc : e.orig.lookup v = some c)
    (hd : d.IsDist c.states) (x₀ : V → S) (A : (V → S) → Prop) [DecidablePred A] :
    massOf e.dom (netNodes (setCpd e.cpds v (interventionCpd V d))) x₀ A =
      massWith e.dom (bn.map Prod.fst) (truncated (netNodes e.cpds) v d.val) x₀ A := by
  unfold massOf massWith
  rw [netNodes_vars, setCpd_vars, hi.vars]
  congr 1
  apply List.map_congr_left
  intro x hx
  have hvm : v ∈ bn.map Prod.fst := by
    rw [← cpdsOf_vars, ← hi.orig_eq, ← lookup_isSome_iff]
    exact ⟨c, hc⟩
  apply joint_truncated (by rw [hi.vars]; exact hf.nodup) (by rw [hi.vars]; exact hvm)
  have := (worlds_valid (List.mem_filter.1 hx).1 v).1 hvm
  rw [hd.keys, orig_states hf.nodup (hi.orig_eq ▸ lookup_mem hc), List.mem_toFinset, ← hi.dom_eq]
  exact this

/-! ### C23 -/

/-- **C23**, for networks that stay in one piece.  After an intervention accepted by a reachable
engine `e`, and as long as the graph without the arrows into `v` is connected, every query with
evidence of positive probability reports, for every variable and state, the exact conditional
probability under the truncated factorisation.

Missing: nothing is reported when the intervention disconnects the graph; see
`query_after_do_iff` and `do_can_break_queries`. -/
theorem do_truncated_partial {nd : Nondet V} (hnd : nd.Legal) {bn : List (V × Frame V S K)}
    (hf : Fitted bn) {e e' : Engine V S K} (he : Reach nd bn e) {v : V} {d : Dist S K}
    (hdo : e.doIntervention v (.dist d) = (e', .ok ()))
    (hconn : Connected (netNodes e'.cpds))
    {x₀ : V → S} (hx₀ : ∀ v ∈ bn.map Prod.fst, x₀ v ∈ domOf bn v)
    {ev : List (V × S)} (hk : (ev.map Prod.fst).Nodup)
    (hev : ∀ p ∈ ev, p.1 ∈ bn.map Prod.fst ∧ p.2 ∈ domOf bn p.1)
    (hpos : 0 < massWith (domOf bn) (bn.map Prod.fst) (truncated (netNodes e.cpds) v d.val) x₀
      (Agrees ev)) :
    ∃ out, e'.query nd ev = .ok out ∧ Reports (domOf bn) (bn.map Prod.fst)
      (fun w s =>
        massWith (domOf bn) (bn.map Prod.fst) (truncated (netNodes e.cpds) v d.val) x₀
            (fun x => Agrees ev x ∧ x w = s) /
          massWith (domOf bn) (bn.map Prod.fst) (truncated (netNodes e.cpds) v d.val) x₀
            (Agrees ev)) out := by
  have hi := he.inv hf
  rcases hi.do_cases hf v (.dist d) with ⟨err, h, _, _⟩ | ⟨d', c, e₁, hd', hc, hd, _, h, hi', hcp⟩
  · rw [h] at hdo; cases hdo
  · rw [h] at hdo
    cases hdo
    cases hd'
    have hm := massOf_do hi hf hc hd x₀
    have hdom : e'.dom = e.dom := hi'.dom_eq.trans hi.dom_eq.symm
    obtain ⟨out, h1, h2⟩ := hi'.query_reports hnd hf hconn (x₀ := x₀) (ev := ev)
      (by rw [hi'.vars, hi'.dom_eq]; exact hx₀) hk
      (by
        intro p hp
        rw [netNodes_vars, hi'.vars, hi'.dom_eq]
        exact hev p hp)
      (by rw [hcp, hdom, hm, hi.dom_eq]; exact hpos)
    refine ⟨out, h1, ?_⟩
    rw [hcp, hdom] at h2
    simp only [hm] at h2
    rw [hi.dom_eq, setCpd_vars, hi.vars] at h2
    exact h2

/-- After an intervention queries succeed exactly when the remaining graph is connected. -/
theorem query_after_do_iff {nd : Nondet V} (hnd : nd.Legal) {bn : List (V × Frame V S K)}
    (hf : Fitted bn) {e e' : Engine V S K} (he : Reach nd bn e) {v : V} {a : DoArg S K}
    (hdo : e.doIntervention v a = (e', .ok ()))
    {x₀ : V → S} (hx₀ : ∀ v ∈ bn.map Prod.fst, x₀ v ∈ domOf bn v) :
    (∃ out, e'.query nd [] = .ok out) ↔ Connected (netNodes e'.cpds) := by
  have hi := he.inv hf
  have hi' : e'.Inv bn := by
    have := hi.step hf nd (.doIt v a)
    simpa only [Engine.step, hdo] using this
  constructor
  · rintro ⟨out, ho⟩
    by_contra hc
    obtain ⟨err, herr⟩ := hi'.query_disconnected hnd hf hc []
    rw [ho] at herr; cases herr
  · intro hc
    have hx : ∀ v ∈ e'.cpds.map Prod.fst, x₀ v ∈ e'.dom v := by
      rw [hi'.vars, hi'.dom_eq]; exact hx₀
    have hN := hi'.network hf hc
    obtain ⟨dom', h, hd, hx'⟩ := exists_total_dom hN.states_nodup (x₀ := x₀)
      (by rw [netNodes_vars]; exact hx)
    have h1 : massOf e'.dom (netNodes e'.cpds) x₀ (Agrees []) = 1 := by
      rw [← massOf_dom_congr h, ← massOf_total hN.wf hN.acyclic (hN.congr h).normalised hx']
      apply massOf_congr
      intro x; simp [Agrees]
    obtain ⟨out, ho, _⟩ := hi'.query_reports hnd hf hc hx (ev := []) (by simp)
      (by intro p hp; simp at hp) (by rw [h1]; exact one_pos)
    exact ⟨out, ho⟩

/-- **C23**, the node itself: under the truncated factorisation its marginal is the distribution
it was set to. -/
theorem do_own_marginal {nd : Nondet V} {bn : List (V × Frame V S K)} (hf : Fitted bn)
    {e e' : Engine V S K} (he : Reach nd bn e) {v : V} {d : Dist S K}
    (hdo : e.doIntervention v (.dist d) = (e', .ok ()))
    {x₀ : V → S} (hx₀ : ∀ v ∈ bn.map Prod.fst, x₀ v ∈ domOf bn v) {s : S}
    (hs : s ∈ domOf bn v) :
    massWith (domOf bn) (bn.map Prod.fst) (truncated (netNodes e.cpds) v d.val) x₀
      (fun x => x v = s) = d.val s := by
  have hi := he.inv hf
  rcases hi.do_cases hf v (.dist d) with ⟨err, h, _, _⟩ | ⟨d', c, e₁, hd', hc, hd, _, h, hi', hcp⟩
  · rw [h] at hdo; cases hdo
  cases hd'
  have hm := massOf_do hi hf hc hd x₀ (fun x => x v = s)
  rw [hi.dom_eq] at hm
  rw [← hm]
  have hvm : v ∈ bn.map Prod.fst := by
    rw [← cpdsOf_vars, ← hi.orig_eq, ← lookup_isSome_iff]
    exact ⟨c, hc⟩
  rw [← hcp, ← hi'.dom_eq]
  have hroot : ∀ n ∈ netNodes e₁.cpds, n.var = v → n = ⟨cpdFactor (v, interventionCpd V d), v⟩ := by
    intro n hn hnv
    rw [hcp] at hn
    obtain ⟨q, hq, rfl⟩ := List.mem_map.1 hn
    rcases mem_setCpd hq with ⟨_, hne⟩ | rfl
    · exact absurd hnv hne
    · rfl
  rw [massOf_ancestral (hi'.wf hf) (hi'.acyclic hf)
    (fun n hn => hi'.dom_nodup hf (by rw [← netNodes_vars]; exact List.mem_map_of_mem hn))
    (hi'.normalised hf) (by rw [netNodes_vars, hi'.vars, hi'.dom_eq]; exact hx₀)
    (fun w => w = v)
    (by
      intro n hn hnv a ha
      rw [hroot n hn hnv] at ha
      simpa [cpdFactor, interventionCpd] using ha)
    (fun x => x v = s) (fun x y h => by rw [h v rfl])]
  have hfil : ((netNodes e₁.cpds).filter fun n => n.var = v) =
      [⟨cpdFactor (v, interventionCpd V d), v⟩] := by
    have hnd := (hi'.wf hf).nodup
    have hin : v ∈ (netNodes e₁.cpds).map Node.var := by
      rw [netNodes_vars, hi'.vars]; exact hvm
    revert hroot hnd hin
    generalize netNodes e₁.cpds = l
    intro hroot hnd hin
    induction l with
    | nil => simp at hin
    | cons n l ih =>
      rw [List.map_cons, List.nodup_cons] at hnd
      by_cases hnv : n.var = v
      · rw [List.filter_cons, if_pos (by simpa using hnv), hroot n List.mem_cons_self hnv]
        congr 1
        rw [List.filter_eq_nil_iff]
        intro m hm
        have : m.var ≠ v := fun h' => hnd.1 (by rw [hnv, ← h']; exact List.mem_map_of_mem hm)
        simpa using this
      · rw [List.filter_cons, if_neg (by simpa using hnv)]
        apply ih (fun n hn => hroot n (List.mem_cons_of_mem _ hn)) hnd.2
        rw [List.map_cons, List.mem_cons] at hin
        exact hin.resolve_left fun h' => hnv h'.symm
  rw [hfil, massOf_eq_sumOver, hi'.dom_eq]
  simp only [List.map_cons, List.map_nil, sumOver, joint, update_self, List.prod_cons,
    List.prod_nil, mul_one, cpdFactor, interventionCpd]
  have hndv : (domOf bn v).Nodup := by
    rw [← hi'.dom_eq]
    exact hi'.dom_nodup hf (by rw [hi'.vars]; exact hvm)
  rw [← sum_finset_list hndv, Finset.sum_ite_eq' , if_pos (List.mem_toFinset.2 hs), if_pos]
  rw [hd.keys, orig_states hf.nodup (hi.orig_eq ▸ lookup_mem hc), List.mem_toFinset]
  exact hs

/-- **C23**, the rest of the world: an event that only involves non-descendants of the node keeps
its probability. -/
theorem do_nondescendants {nd : Nondet V} {bn : List (V × Frame V S K)} (hf : Fitted bn)
    {e e' : Engine V S K} (he : Reach nd bn e) {v : V} {d : Dist S K}
    (hdo : e.doIntervention v (.dist d) = (e', .ok ()))
    {x₀ : V → S} (hx₀ : ∀ v ∈ bn.map Prod.fst, x₀ v ∈ domOf bn v)
    (A : (V → S) → Prop) [DecidablePred A]
    (hA : ∀ x y : V → S, (∀ w, ¬ DescendantOrSelf (netNodes e.cpds) v w → x w = y w) →
      (A x ↔ A y)) :
    massWith (domOf bn) (bn.map Prod.fst) (truncated (netNodes e.cpds) v d.val) x₀ A =
      massOf (domOf bn) (netNodes e.cpds) x₀ A := by
  classical
  have hi := he.inv hf
  rcases hi.do_cases hf v (.dist d) with ⟨err, h, _, _⟩ | ⟨d', c, e₁, hd', hc, hd, _, h, hi', hcp⟩
  · rw [h] at hdo; cases hdo
  cases hd'
  have hm := massOf_do hi hf hc hd x₀ A
  rw [hi.dom_eq] at hm
  rw [← hm, ← hcp]
  have hclosed : ∀ n ∈ netNodes e.cpds, ¬ DescendantOrSelf (netNodes e.cpds) v n.var →
      ∀ a ∈ n.args, ¬ DescendantOrSelf (netNodes e.cpds) v a := by
    intro n hn hnv a ha hda
    by_cases hav : a = n.var
    · exact hnv (hav ▸ hda)
    · exact hnv (hda.tail (link_arrows.2 ⟨n, hn, rfl, ha, hav⟩))
  have hmem : ∀ n ∈ netNodes e₁.cpds, n.var ≠ v → n ∈ netNodes e.cpds := by
    intro n hn hnv
    rw [hcp] at hn
    obtain ⟨q, hq, rfl⟩ := List.mem_map.1 hn
    rcases mem_setCpd hq with ⟨hq, _⟩ | rfl
    · exact List.mem_map_of_mem (f := fun q : V × Cpd V S K =>
        (⟨cpdFactor q, q.1⟩ : Node V S K)) hq
    · exact absurd rfl hnv
  have hdv : DescendantOrSelf (netNodes e.cpds) v v := Relation.ReflTransGen.refl
  have h1 := massOf_ancestral (hi'.wf hf) (hi'.acyclic hf)
    (fun n hn => hi'.dom_nodup hf (by rw [← netNodes_vars]; exact List.mem_map_of_mem hn))
    (hi'.normalised hf) (x₀ := x₀) (by rw [netNodes_vars, hi'.vars, hi'.dom_eq]; exact hx₀)
    (fun w => ¬ DescendantOrSelf (netNodes e.cpds) v w)
    (by
      intro n hn hnv
      exact hclosed n (hmem n hn fun h' => hnv (h' ▸ hdv)) hnv) A hA
  have h2 := massOf_ancestral (hi.wf hf) (hi.acyclic hf)
    (fun n hn => hi.dom_nodup hf (by rw [← netNodes_vars]; exact List.mem_map_of_mem hn))
    (hi.normalised hf) (x₀ := x₀) (by rw [netNodes_vars, hi.vars, hi.dom_eq]; exact hx₀)
    (fun w => ¬ DescendantOrSelf (netNodes e.cpds) v w) hclosed A hA
  rw [hi'.dom_eq] at h1
  rw [hi.dom_eq] at h2
  rw [h1, h2]
  congr 1
  rw [hcp]
  unfold netNodes setCpd
  rw [List.map_map, List.filter_map, List.filter_map]
  have : ∀ l : List (V × Cpd V S K), (∀ q ∈ l, True) →
      (l.filter ((fun n : Node V S K => decide (¬ DescendantOrSelf (netNodes e.cpds) v n.var)) ∘
        ((fun q : V × Cpd V S K => (⟨cpdFactor q, q.1⟩ : Node V S K)) ∘
          fun q => if q.1 = v then (v, interventionCpd V d) else q))).map
        ((fun q : V × Cpd V S K => (⟨cpdFactor q, q.1⟩ : Node V S K)) ∘
          fun q => if q.1 = v then (v, interventionCpd V d) else q) =
      (l.filter ((fun n : Node V S K => decide (¬ DescendantOrSelf (netNodes e.cpds) v n.var)) ∘
        (fun q : V × Cpd V S K => (⟨cpdFactor q, q.1⟩ : Node V S K)))).map
        (fun q : V × Cpd V S K => (⟨cpdFactor q, q.1⟩ : Node V S K)) := by
    intro l _
    induction l with
    | nil => rfl
    | cons q l ih =>
      have ih := ih (fun _ _ => trivial)
      by_cases hq : q.1 = v
      · rw [List.filter_cons_of_neg (by simp [hq, hdv]), List.filter_cons_of_neg
          (by simp [hq, hdv]), ih]
      · by_cases hdq : DescendantOrSelf (netNodes e.cpds) v q.1
        · rw [List.filter_cons_of_neg (by simp [hq, hdq]), List.filter_cons_of_neg
            (by simp [hdq]), ih]
        · rw [List.filter_cons_of_pos (by simp [hq, hdq]), List.filter_cons_of_pos
            (by simp [hdq]), List.map_cons, List.map_cons, ih]
          simp [hq]
  exact this e.cpds fun _ _ => trivial

/-- Setting a node to a state given by an `int` label is setting it to the distribution
concentrated on that state. -/
theorem do_label_eq_point {nd : Nondet V} {bn : List (V × Frame V S K)} (hf : Fitted bn)
    {e : Engine V S K} (he : Reach nd bn e) {v : V} (hv : v ∈ bn.map Prod.fst) (s : S) :
    e.doIntervention v (.label true s) = e.doIntervention v
      (.dist ⟨(domOf bn v).toFinset, fun t => if t = s then 1 else 0⟩) := by
  have hi := he.inv hf
  obtain ⟨c, hc⟩ := (lookup_isSome_iff e.cpds v).2 (by rw [hi.vars]; exact hv)
  have hst : c.states = (domOf bn v).toFinset := by
    rcases hi.each _ (lookup_mem hc) with h | ⟨c₀, h, d, hd, he'⟩
    · exact orig_states hf.nodup (hi.orig_eq ▸ h)
    · have : c.states = d.keys := by
        have : c = interventionCpd V d := he'
        rw [this]; rfl
      rw [this, hd.keys]
      exact orig_states hf.nodup (hi.orig_eq ▸ h)
  unfold Engine.doIntervention
  simp only [hc, hst]

/-! ### C26 -/

/-- **C26.** An intervention on a reachable engine raises exactly when the node is no parent of
another one (it would be isolated), or the state is neither a dict nor an `int`, or the dict is
not a distribution on the states of the node; and then the engine is what it was. -/
theorem do_rejects_iff {nd : Nondet V} {bn : List (V × Frame V S K)} (hf : Fitted bn)
    {e : Engine V S K} (he : Reach nd bn e) (v : V) (d : Dist S K) :
    ((∃ err, (e.doIntervention v (.dist d)).2 = .error err) ↔
      (¬ ∃ q ∈ e.cpds, v ∈ q.2.parents) ∨ ∑ s ∈ d.keys, d.val s ≠ 1 ∨
        (∃ s ∈ d.keys, d.val s < 0 ∨ 1 < d.val s) ∨ d.keys ≠ (domOf bn v).toFinset) ∧
    (∀ a err, (e.doIntervention v a).2 = .error err → (e.doIntervention v a).1 = e ∧
      (err = .valueError ∨ err = .attributeError ∧ ∃ s, a = .label false s)) := by
  have hi := he.inv hf
  constructor
  · rcases hi.do_cases hf v (.dist d) with
      ⟨err, h, _, hno⟩ | ⟨d', c, e₁, hd', hc, hd, hp, h, hi', hcp⟩
    · rw [h]
      refine ⟨fun _ => ?_, fun _ => ⟨err, rfl⟩⟩
      by_contra hcon
      push Not at hcon
      obtain ⟨h1, h2, h3, h4⟩ := hcon
      apply hno
      refine ⟨h1, d, ?_⟩
      have hvm := hi.isParent_mem hf h1
      rw [hi.vars, ← cpdsOf_vars, ← hi.orig_eq, ← lookup_isSome_iff] at hvm
      obtain ⟨c, hc⟩ := hvm
      refine ⟨c, rfl, hc, ?_, h2, fun s hs => (h3 s hs).1⟩
      rw [h4, orig_states hf.nodup (hi.orig_eq ▸ lookup_mem hc)]
    · cases hd'
      rw [h]
      constructor
      · rintro ⟨err, h⟩; cases h
      · rintro (h1 | h1 | ⟨s, hs, h1⟩ | h1)
        · exact absurd hp h1
        · exact absurd hd.sum h1
        · rcases h1 with h1 | h1
          · exact absurd (hd.nonneg s hs) (not_le.2 h1)
          · have := Finset.single_le_sum (f := d.val) (fun t ht => hd.nonneg t ht) hs
            rw [hd.sum] at this
            exact absurd h1 (not_lt.2 this)
        · exact absurd (hd.keys.trans (orig_states hf.nodup (hi.orig_eq ▸ lookup_mem hc))) h1
  · intro a err herr
    rcases hi.do_cases hf v a with ⟨err', h, hk, _⟩ | ⟨d', c, e₁, hd', hc, hd, hp, h, hi', hcp⟩
    · rw [h] at herr ⊢
      cases herr
      refine ⟨rfl, ?_⟩
      rcases hk with h | ⟨h, _, h'⟩
      · exact Or.inl h
      · exact Or.inr ⟨h, h'⟩
    · rw [h] at herr; cases herr

/-- **C26**, labels: an `int` label is rejected exactly when the node is no parent or the label is
not one of its states; any other label is always rejected. -/
theorem do_label_rejects_iff {nd : Nondet V} {bn : List (V × Frame V S K)} (hf : Fitted bn)
    {e : Engine V S K} (he : Reach nd bn e) (v : V) (s : S) :
    ((∃ err, (e.doIntervention v (.label true s)).2 = .error err) ↔
      (¬ ∃ q ∈ e.cpds, v ∈ q.2.parents) ∨ s ∉ domOf bn v) ∧
    (∃ err, (e.doIntervention v (.label false s)).2 = .error err) := by
  have hi := he.inv hf
  constructor
  · by_cases hp : ∃ q ∈ e.cpds, v ∈ q.2.parents
    · have hvm := hi.isParent_mem hf hp
      rw [hi.vars] at hvm
      rw [do_label_eq_point hf he hvm, (do_rejects_iff hf he v _).1]
      by_cases hs : s ∈ domOf bn v
      · simp only [hp, hs, not_true_eq_false, false_or, iff_false, Finset.sum_ite_eq',
          List.mem_toFinset, if_true, ne_eq]
        rintro (⟨t, _, h⟩ | h)
        · split at h
          · rcases h with h | h
            · exact absurd h (not_lt.2 zero_le_one)
            · exact absurd h (lt_irrefl _)
          · rcases h with h | h
            · exact absurd h (lt_irrefl _)
            · exact absurd h (not_lt.2 zero_le_one)
        · exact h
      · simp [hs]
    · rcases hi.do_cases hf v (.label true s) with
        ⟨err, h, _, _⟩ | ⟨d', c, e₁, hd', hc, hd, hp', h, hi', hcp⟩
      · rw [h]
        exact ⟨fun _ => Or.inl hp, fun _ => ⟨err, rfl⟩⟩
      · exact absurd hp' hp
  · rcases hi.do_cases hf v (.label false s) with
      ⟨err, h, _, _⟩ | ⟨d', c, e₁, hd', hc, hd, hp', h, hi', hcp⟩
    · rw [h]; exact ⟨err, rfl⟩
    · simp [Engine.argDist] at hd'

/-! ### C24 -/

/-- Two engines over the same network with the same CPDs are the same. -/
theorem Engine.Inv.ext {bn : List (V × Frame V S K)} {e e' : Engine V S K} (hi : e.Inv bn)
    (hi' : e'.Inv bn) (h : e.cpds = e'.cpds) : e = e' := by
  obtain ⟨h1, h2, _, _, h5, h6⟩ := hi
  obtain ⟨h1', h2', _, _, h5', h6'⟩ := hi'
  cases e with | mk dom cpds orig fns bbn =>
  cases e' with | mk dom' cpds' orig' fns' bbn' =>
  simp only at *
  subst h1 h1' h2 h2' h h5 h5'
  rw [h6] at h6'
  cases h6'
  rfl

theorem lookup_setCpd {cpds : List (V × Cpd V S K)} {v : V} {c : Cpd V S K} (w : V) :
    (setCpd cpds v c).lookup w =
      if w = v then (cpds.lookup v).map (fun _ => c) else cpds.lookup w := by
  induction cpds with
  | nil => simp [setCpd]
  | cons q cpds ih =>
    obtain ⟨u, c'⟩ := q
    have hset : setCpd ((u, c') :: cpds) v c =
        (if u = v then (v, c) else (u, c')) :: setCpd cpds v c := rfl
    rw [hset]
    by_cases huv : u = v
    · subst huv
      rw [if_pos rfl]
      by_cases hw : w = u
      · subst hw; simp [List.lookup_cons]
      · have : (w == u) = false := by simpa using hw
        simp only [List.lookup_cons, this, ih, if_neg hw]
    · rw [if_neg huv]
      by_cases hw : w = u
      · subst hw
        simp [List.lookup_cons, huv]
      · have h1 : (w == u) = false := by simpa using hw
        have h2 : (v == u) = false := by
          simpa using fun h : v = u => huv h.symm
        simp only [List.lookup_cons, h1, h2, ih]

theorem eq_of_lookup {l l' : List (V × Cpd V S K)} (h : l.map Prod.fst = l'.map Prod.fst)
    (hnd : (l.map Prod.fst).Nodup) (hl : ∀ v, l.lookup v = l'.lookup v) : l = l' := by
  induction l generalizing l' with
  | nil =>
    cases l' with
    | nil => rfl
    | cons _ _ => simp at h
  | cons q l ih =>
    cases l' with
    | nil => simp at h
    | cons q' l' =>
      obtain ⟨u, c⟩ := q
      obtain ⟨u', c'⟩ := q'
      simp only [List.map_cons, List.cons.injEq] at h
      obtain ⟨rfl, h⟩ := h
      rw [List.map_cons, List.nodup_cons] at hnd
      have := hl u
      simp only [List.lookup_cons, beq_self_eq_true, Option.some.injEq] at this
      subst this
      congr 1
      apply ih h hnd.2
      intro v
      by_cases hv : v = u
      · subst hv
        have h1 : ∀ m : List (V × Cpd V S K), v ∉ m.map Prod.fst → m.lookup v = none := by
          intro m hm
          cases hlk : m.lookup v with
          | none => rfl
          | some b => exact absurd ((lookup_isSome_iff m v).1 ⟨b, hlk⟩) hm
        rw [h1 l hnd.1, h1 l' (h ▸ hnd.1)]
      · have := hl v
        have h1 : (v == u) = false := by simpa using hv
        simpa only [List.lookup_cons, h1] using this

/-- Operations on other nodes leave the CPD of a node alone, and so do rejected ones. -/
theorem Engine.Inv.step_lookup {nd : Nondet V} {bn : List (V × Frame V S K)} {e : Engine V S K}
    (hi : e.Inv bn) (hf : Fitted bn) (v : V) (op : Op V S K)
    (h : ∀ a, op = .doIt v a → ∃ err, (e.doIntervention v a).2 = .error err)
    (ho : e.cpds.lookup v = e.orig.lookup v) :
    (e.step nd op).cpds.lookup v = e.orig.lookup v := by
  cases op with
  | query ev => exact ho
  | doIt w a =>
    rcases hi.do_cases hf w a with ⟨err, h', _, _⟩ | ⟨d, c, e', _, _, _, _, h', hinv, hcp⟩
    · simp only [Engine.step, h']; exact ho
    · simp only [Engine.step, h']
      by_cases hvw : v = w
      · subst hvw
        obtain ⟨err, herr⟩ := h a rfl
        rw [h'] at herr; cases herr
      · rw [hcp, lookup_setCpd, if_neg hvw]; exact ho
  | reset w =>
    rcases hi.reset_cases hf w with ⟨_, h'⟩ | ⟨_, c, e', hc, h', hinv, hcp⟩
    · simp only [Engine.step, h']; exact ho
    · simp only [Engine.step, h']
      by_cases hvw : v = w
      · subst hvw
        rw [hcp, lookup_setCpd, if_pos rfl, ho, hc]; rfl
      · rw [hcp, lookup_setCpd, if_neg hvw]; exact ho

theorem Engine.Inv.reset_lookup {nd : Nondet V} {bn : List (V × Frame V S K)} {e : Engine V S K}
    (hi : e.Inv bn) (hf : Fitted bn) (v : V) :
    (e.step nd (.reset v)).cpds.lookup v = e.orig.lookup v := by
  have hmem : ∀ e : Engine V S K, e.Inv bn → v ∉ bn.map Prod.fst → e.cpds.lookup v = none := by
    intro e hi hv
    cases hlk : e.cpds.lookup v with
    | none => rfl
    | some b =>
      have := (lookup_isSome_iff e.cpds v).1 ⟨b, hlk⟩
      rw [hi.vars] at this
      exact absurd this hv
  rcases hi.reset_cases hf v with ⟨hv, h'⟩ | ⟨hv, c, e', hc, h', hinv, hcp⟩
  · simp only [Engine.step, h']
    rw [hmem e hi hv]
    cases hlk : e.orig.lookup v with
    | none => rfl
    | some b =>
      have := (lookup_isSome_iff e.orig v).1 ⟨b, hlk⟩
      rw [hi.orig_eq, cpdsOf_vars] at this
      exact absurd this hv
  · simp only [Engine.step, h']
    have hv' : v ∈ e.cpds.map Prod.fst := by rw [hi.vars]; exact hv
    obtain ⟨b, hb⟩ := (lookup_isSome_iff e.cpds v).2 hv'
    rw [hcp, lookup_setCpd, if_pos rfl, hb, hc]; rfl

theorem Engine.Inv.run_lookup {nd : Nondet V} {bn : List (V × Frame V S K)} {e : Engine V S K}
    (hi : e.Inv bn) (hf : Fitted bn) (v : V) (ops : List (Op V S K))
    (ho : e.cpds.lookup v = e.orig.lookup v)
    (h : ∀ ops₁ a ops₂, ops = ops₁ ++ .doIt v a :: ops₂ →
      ((e.run nd ops₁).doIntervention v a).2 = .ok () → .reset v ∈ ops₂) :
    (e.run nd ops).cpds.lookup v = e.orig.lookup v := by
  induction ops using List.reverseRecOn with
  | nil => exact ho
  | append_singleton ops op ih =>
    have hrun : e.run nd (ops ++ [op]) = (e.run nd ops).step nd op := by
      simp [Engine.run, List.foldl_append]
    have hi₁ := hi.run hf nd ops
    have horig : (e.run nd ops).orig = e.orig := hi₁.orig_eq.trans hi.orig_eq.symm
    rw [hrun]
    by_cases hr : op = .reset v
    · subst hr
      rw [hi₁.reset_lookup hf v, horig]
    · have hlast : ∀ a, op = .doIt v a →
          ∃ err, ((e.run nd ops).doIntervention v a).2 = .error err := by
        rintro a rfl
        cases hres : ((e.run nd ops).doIntervention v a).2 with
        | error err => exact ⟨err, rfl⟩
        | ok u =>
          have := h ops a [] rfl hres
          simp at this
      rw [hi₁.step_lookup hf v op hlast, horig]
      rw [horig]
      apply ih
      intro ops₁ a ops₂ heq hok
      have := h ops₁ a (ops₂ ++ [op]) (by simp [heq]) hok
      rw [List.mem_append, List.mem_singleton] at this
      exact this.resolve_right fun h' => hr h'.symm

/-- **C24.** After any history of interventions, resets and queries in which every successful
intervention is followed by a reset of the same node, the engine is the freshly built one. -/
theorem reset_restores {nd : Nondet V} {bn : List (V × Frame V S K)} (hf : Fitted bn)
    {okName : V → Bool} {e₀ : Engine V S K} (hc : Engine.create okName bn = .ok e₀)
    (ops : List (Op V S K))
    (h : ∀ v ops₁ a ops₂, ops = ops₁ ++ .doIt v a :: ops₂ →
      ((e₀.run nd ops₁).doIntervention v a).2 = .ok () → .reset v ∈ ops₂) :
    e₀.run nd ops = e₀ := by
  obtain ⟨hi, hcp⟩ := Engine.create_inv hf hc
  have ho : ∀ v, e₀.cpds.lookup v = e₀.orig.lookup v := by
    intro v; rw [hcp, hi.orig_eq]
  have hi' := hi.run hf nd ops
  apply hi'.ext hi
  apply eq_of_lookup (by rw [hi'.vars, hi.vars]) (by rw [hi'.vars]; exact hf.nodup)
  intro v
  rw [hi.run_lookup hf v ops (ho v) (h v), ho v]

/-- **C24**, one node at a time: a reset gives its node the original CPD and leaves the CPDs of
all other nodes, and with them their interventions, as they are. -/
theorem reset_only_one {nd : Nondet V} {bn : List (V × Frame V S K)} (hf : Fitted bn)
    {e : Engine V S K} (he : Reach nd bn e) (v : V) :
    (v ∈ bn.map Prod.fst → (e.resetDo v).2 = .ok ()) ∧
    (e.resetDo v).1.cpds.lookup v = (cpdsOf bn).lookup v ∧
    ∀ w, w ≠ v → (e.resetDo v).1.cpds.lookup w = e.cpds.lookup w := by
  have hi := he.inv hf
  refine ⟨?_, ?_, ?_⟩
  · intro hv
    rcases hi.reset_cases hf v with ⟨hv', _⟩ | ⟨_, c, e', hc, h', hinv, hcp⟩
    · exact absurd hv hv'
    · rw [h']
  · have := hi.reset_lookup (nd := nd) hf v
    rw [hi.orig_eq] at this
    exact this
  · intro w hw
    rcases hi.reset_cases hf v with ⟨hv', h'⟩ | ⟨_, c, e', hc, h', hinv, hcp⟩
    · rw [h']
    · rw [h', hcp, lookup_setCpd, if_neg hw]

/-! ### C25 -/

theorem setCpd_comm {cpds : List (V × Cpd V S K)} {v w : V} (h : v ≠ w) (c c' : Cpd V S K) :
    setCpd (setCpd cpds v c) w c' = setCpd (setCpd cpds w c') v c := by
  unfold setCpd
  rw [List.map_map, List.map_map]
  apply List.map_congr_left
  intro q _
  simp only [Function.comp_apply]
  by_cases h1 : q.1 = v
  · have h2 : q.1 ≠ w := fun h' => h (h1.symm.trans h')
    simp [h1, h2, h]
  · by_cases h2 : q.1 = w
    · have : w ≠ v := fun h' => h h'.symm
      simp [h2, this]
    · simp [h1, h2]

theorem setCpd_idem {cpds : List (V × Cpd V S K)} {v : V} (c c' : Cpd V S K) :
    setCpd (setCpd cpds v c) v c' = setCpd cpds v c' := by
  unfold setCpd
  rw [List.map_map]
  apply List.map_congr_left
  intro q _
  simp only [Function.comp_apply]
  by_cases h1 : q.1 = v
  · simp [h1]
  · simp [h1]

/-- The states of a node are the same in all CPDs it can have. -/
theorem Engine.Inv.cpd_states {bn : List (V × Frame V S K)} {e : Engine V S K} (hi : e.Inv bn)
    (hf : Fitted bn) {v : V} {c : Cpd V S K} (hc : e.cpds.lookup v = some c) :
    c.states = (domOf bn v).toFinset := by
  rcases hi.each _ (lookup_mem hc) with h | ⟨c₀, h, d, hd, he'⟩
  · exact orig_states hf.nodup (hi.orig_eq ▸ h)
  · have : c.states = d.keys := by
      have : c = interventionCpd V d := he'
      rw [this]; rfl
    rw [this, hd.keys]
    exact orig_states hf.nodup (hi.orig_eq ▸ h)

/-- What an argument stands for depends on the network only. -/
theorem Engine.Inv.argDist_eq {bn : List (V × Frame V S K)} {e e' : Engine V S K} (hi : e.Inv bn)
    (hi' : e'.Inv bn) (hf : Fitted bn) (v : V) (a : DoArg S K) :
    e.argDist v a = e'.argDist v a := by
  cases a with
  | dist d => rfl
  | label b s =>
    cases b with
    | false => rfl
    | true =>
      simp only [Engine.argDist]
      cases h : e.cpds.lookup v with
      | none =>
        cases h' : e'.cpds.lookup v with
        | none => rfl
        | some b =>
          have := (lookup_isSome_iff e'.cpds v).1 ⟨b, h'⟩
          rw [hi'.vars, ← hi.vars, ← lookup_isSome_iff] at this
          obtain ⟨b, hb⟩ := this
          rw [h] at hb; cases hb
      | some c =>
        have := (lookup_isSome_iff e.cpds v).1 ⟨c, h⟩
        rw [hi.vars, ← hi'.vars, ← lookup_isSome_iff] at this
        obtain ⟨c', hc'⟩ := this
        rw [hc']
        simp only [Option.map_some, hi.cpd_states hf h, hi'.cpd_states hf hc']

/-- **C25.** Interventions on two different nodes give the same engine in either order, whenever
both orders are accepted. -/
theorem do_commute {nd : Nondet V} {bn : List (V × Frame V S K)} (hf : Fitted bn)
    {e : Engine V S K} (he : Reach nd bn e) {v w : V} (hvw : v ≠ w) {a b : DoArg S K}
    {e₁ e₂ f₁ f₂ : Engine V S K}
    (h₁ : e.doIntervention v a = (e₁, .ok ())) (h₂ : e₁.doIntervention w b = (e₂, .ok ()))
    (k₁ : e.doIntervention w b = (f₁, .ok ())) (k₂ : f₁.doIntervention v a = (f₂, .ok ())) :
    e₂ = f₂ := by
  have hi := he.inv hf
  rcases hi.do_cases hf v a with ⟨err, h, _, _⟩ | ⟨d, c, e', hd, _, _, _, h, hi₁, hcp₁⟩
  · rw [h] at h₁; cases h₁
  rw [h] at h₁; cases h₁
  rcases hi.do_cases hf w b with ⟨err, h, _, _⟩ | ⟨d', c', e', hd', _, _, _, h, hj₁, hcq₁⟩
  · rw [h] at k₁; cases k₁
  rw [h] at k₁; cases k₁
  rcases hi₁.do_cases hf w b with ⟨err, h, _, _⟩ | ⟨d₂, _, e', hd₂, _, _, _, h, hi₂, hcp₂⟩
  · rw [h] at h₂; cases h₂
  rw [h] at h₂; cases h₂
  rcases hj₁.do_cases hf v a with ⟨err, h, _, _⟩ | ⟨d₃, _, e', hd₃, _, _, _, h, hj₂, hcq₂⟩
  · rw [h] at k₂; cases k₂
  rw [h] at k₂; cases k₂
  rw [← hi.argDist_eq hi₁ hf, hd'] at hd₂
  rw [← hi.argDist_eq hj₁ hf, hd] at hd₃
  cases hd₂
  cases hd₃
  apply hi₂.ext hj₂
  rw [hcp₂, hcp₁, hcq₂, hcq₁, setCpd_comm hvw]

/-- **C25**, when both orders are accepted: an intervention on `w` takes nothing from the
acceptance of an intervention on `v`, as long as `v` has a child other than `w`. -/
theorem do_after_do {nd : Nondet V} {bn : List (V × Frame V S K)} (hf : Fitted bn)
    {e : Engine V S K} (he : Reach nd bn e) {v w : V} {a b : DoArg S K} {f₁ : Engine V S K}
    (k₁ : e.doIntervention w b = (f₁, .ok ()))
    (hchild : ∃ q ∈ e.cpds, v ∈ q.2.parents ∧ q.1 ≠ w) :
    (∃ f₂, f₁.doIntervention v a = (f₂, .ok ())) ↔ ∃ e₁, e.doIntervention v a = (e₁, .ok ()) := by
  have hi := he.inv hf
  rcases hi.do_cases hf w b with ⟨err, h, _, _⟩ | ⟨d', c', e', hd', _, _, _, h, hj, hcq⟩
  · rw [h] at k₁; cases k₁
  rw [h] at k₁; cases k₁
  have hp : IsParent e.cpds v := by
    obtain ⟨q, hq, h1, _⟩ := hchild
    exact ⟨q, hq, h1⟩
  have hp' : IsParent f₁.cpds v := by
    obtain ⟨q, hq, h1, h2⟩ := hchild
    refine ⟨q, ?_, h1⟩
    rw [hcq]
    unfold setCpd
    exact List.mem_map.2 ⟨q, hq, by rw [if_neg h2]⟩
  have hor : f₁.orig = e.orig := hj.orig_eq.trans hi.orig_eq.symm
  have harg := hi.argDist_eq hj hf v a
  rcases hi.do_cases hf v a with ⟨err, h1, _, hno⟩ | ⟨d, c, e', hd, hc, hdd, _, h1, _, _⟩
  · rcases hj.do_cases hf v a with ⟨err', h2, _, _⟩ | ⟨d, c, e', hd, hc, hdd, _, h2, _, _⟩
    · rw [h1, h2]
      constructor
      · rintro ⟨_, h⟩; cases h
      · rintro ⟨_, h⟩; cases h
    · exact absurd ⟨hp, d, c, harg.trans hd, hor ▸ hc, hdd⟩ hno
  · rcases hj.do_cases hf v a with ⟨err', h2, _, hno⟩ | ⟨d, c, e'', hd, hc, hdd, _, h2, _, _⟩
    · exact absurd ⟨hp', d, c, harg ▸ hd, hor ▸ hc, hdd⟩ hno
    · exact ⟨fun _ => ⟨_, h1⟩, fun _ => ⟨_, h2⟩⟩

/-- **C25**, the last intervention on a node wins: after an accepted intervention, a second one on
the same node has the same outcome, and leaves the same engine if accepted, as without the
first. -/
theorem do_last_wins {nd : Nondet V} {bn : List (V × Frame V S K)} (hf : Fitted bn)
    {e : Engine V S K} (he : Reach nd bn e) {v : V} {a b : DoArg S K} {e₁ e₂ : Engine V S K}
    (h₁ : e.doIntervention v a = (e₁, .ok ())) :
    e₁.doIntervention v b = (e₂, .ok ()) ↔ e.doIntervention v b = (e₂, .ok ()) := by
  have hi := he.inv hf
  have h₁' := h₁
  rcases hi.do_cases hf v a with ⟨err, h, _, _⟩ | ⟨d, c, e', hd, _, _, hp, h, hi₁, hcp₁⟩
  · rw [h] at h₁; cases h₁
  rw [h] at h₁; cases h₁
  have hchild : ∃ q ∈ e.cpds, v ∈ q.2.parents ∧ q.1 ≠ v := by
    obtain ⟨q, hq, h1⟩ := hp
    refine ⟨q, hq, h1, ?_⟩
    rintro rfl
    have hnode : (⟨cpdFactor q, q.1⟩ : Node V S K) ∈ netNodes e.cpds := List.mem_map_of_mem hq
    have := (hi.wf hf).args_nodup _ hnode
    simp only [cpdFactor, List.nodup_cons] at this
    exact this.1 h1
  have hiff := do_after_do hf he (a := b) h₁' hchild
  constructor
  · intro h₂
    obtain ⟨f, hf'⟩ := hiff.1 ⟨_, h₂⟩
    rw [hf']
    rcases hi₁.do_cases hf v b with ⟨err, h, _, _⟩ | ⟨d₂, _, e', hd₂, _, _, _, h, hi₂, hcp₂⟩
    · rw [h] at h₂; cases h₂
    rw [h] at h₂; cases h₂
    rcases hi.do_cases hf v b with ⟨err, h, _, _⟩ | ⟨d₃, _, e', hd₃, _, _, _, h, hi₃, hcp₃⟩
    · rw [h] at hf'; cases hf'
    rw [h] at hf'; cases hf'
    rw [← hi.argDist_eq hi₁ hf, hd₃] at hd₂
    cases hd₂
    rw [hi₃.ext hi₂ (by rw [hcp₃, hcp₂, hcp₁, setCpd_idem])]
  · intro h₂
    obtain ⟨f, hf'⟩ := hiff.2 ⟨_, h₂⟩
    rw [hf']
    rcases hi.do_cases hf v b with ⟨err, h, _, _⟩ | ⟨d₂, _, e', hd₂, _, _, _, h, hi₂, hcp₂⟩
    · rw [h] at h₂; cases h₂
    rw [h] at h₂; cases h₂
    rcases hi₁.do_cases hf v b with ⟨err, h, _, _⟩ | ⟨d₃, _, e', hd₃, _, _, _, h, hi₃, hcp₃⟩
    · rw [h] at hf'; cases hf'
    rw [h] at hf'; cases hf'
    rw [← hi.argDist_eq hi₁ hf, hd₂] at hd₃
    cases hd₃
    rw [hi₃.ext hi₂ (by rw [hcp₃, hcp₂, hcp₁, setCpd_idem])]

/-! ### C27 -/

/-- Removing the queries from a history does not change the engine it leaves. -/
theorem run_filter_queries (nd : Nondet V) (e : Engine V S K) (ops : List (Op V S K)) :
    e.run nd ops = e.run nd (ops.filter fun op => match op with | .query _ => false | _ => true) := by
  induction ops generalizing e with
  | nil => rfl
  | cons op ops ih =>
    cases op with
    | query ev =>
      have : e.run nd (.query ev :: ops) = e.run nd ops := rfl
      rw [this, ih]
      rfl
    | doIt v a =>
      have h1 : e.run nd (.doIt v a :: ops) = (e.step nd (.doIt v a)).run nd ops := rfl
      rw [h1, ih]
      rfl
    | reset v =>
      have h1 : e.run nd (.reset v :: ops) = (e.step nd (.reset v)).run nd ops := rfl
      rw [h1, ih]
      rfl

/-- **C27.** In any history, the answer to a query is the one it has in the history without all
earlier queries; in particular asking twice gives the same answer twice. -/
theorem query_pure (nd : Nondet V) (e : Engine V S K) (ops : List (Op V S K))
    (ev : List (V × S)) :
    (e.run nd ops).query nd ev =
      (e.run nd (ops.filter fun op => match op with | .query _ => false | _ => true)).query nd ev :=
  by rw [← run_filter_queries]

end

/-! ### Examples -/

/-- `0 → 1 → 2` and `0 → 2`, two states each. -/
def exBn : List (ℕ × Frame ℕ Bool ℚ) :=
  [(0, ⟨[true, false], [], fun s _ => if s then 3/10 else 7/10⟩),
   (1, ⟨[true, false], [0], fun s ps => match s, ps with
      | true, [true] => 9/10 | false, [true] => 1/10 | true, _ => 1/5 | false, _ => 4/5⟩),
   (2, ⟨[true, false], [0, 1], fun s ps => match s, ps with
      | true, [true, true] => 1 | false, [true, true] => 0 | true, _ => 1/4 | false, _ => 3/4⟩)]

/-- `0 → 1 → 2`, two states each. -/
def exChain : List (ℕ × Frame ℕ Bool ℚ) :=
  [(0, ⟨[true, false], [], fun s _ => if s then 3/10 else 7/10⟩),
   (1, ⟨[true, false], [0], fun s ps => match s, ps with
      | true, [true] => 9/10 | false, [true] => 1/10 | true, _ => 1/5 | false, _ => 4/5⟩),
   (2, ⟨[true, false], [1], fun s ps => match s, ps with
      | true, [true] => 1 | false, [true] => 0 | true, _ => 1/4 | false, _ => 3/4⟩)]

theorem acyclic_of_lt {E : List (ℕ × ℕ)} (h : ∀ e ∈ E, e.1 < e.2) : Graph.Acyclic E := by
  intro v hv
  have : ∀ w, Relation.TransGen (Graph.EdgeRel E) v w → v < w := by
    intro w hw
    induction hw with
    | single h' => exact h _ h'
    | tail _ h' ih => exact ih.trans (h _ h')
  exact lt_irrefl _ (this v hv)

theorem exBn_fitted : Fitted exBn where
  wf := ⟨by decide, by decide, by decide, by decide⟩
  nonempty := by decide
  acyclic := acyclic_of_lt (by decide)
  connected := by
    have h0 : ∀ u ∈ (netNodes (cpdsOf exBn)).map Node.var,
        Graph.WConn (arrows (netNodes (cpdsOf exBn))) 0 u := by
      intro u hu
      have : u = 0 ∨ u = 1 ∨ u = 2 := by
        simpa [exBn, cpdsOf] using hu
      rcases this with rfl | rfl | rfl
      · exact Relation.ReflTransGen.refl
      · exact Graph.wconn_of_mem (by decide)
      · exact Graph.wconn_of_mem (by decide)
    intro u hu w hw
    exact (Graph.WConn.symm (h0 u hu)).trans (h0 w hw)
  states_nodup := by
    intro n hn
    simp only [exBn, cpdsOf, netNodes, List.map_cons, List.map_nil, List.mem_cons,
      List.not_mem_nil, or_false] at hn
    rcases hn with rfl | rfl | rfl <;> decide
  nonneg := by
    intro n hn x _
    simp only [exBn, cpdsOf, netNodes, List.map_cons, List.map_nil, List.mem_cons,
      List.not_mem_nil, or_false] at hn
    rcases hn with rfl | rfl | rfl
    · simp only [cpdFactor, List.map_cons, List.map_nil]
      cases x 0 <;> norm_num
    · simp only [cpdFactor, List.map_cons, List.map_nil]
      cases x 0 <;> cases x 1 <;> norm_num
    · simp only [cpdFactor, List.map_cons, List.map_nil]
      cases x 0 <;> cases x 1 <;> cases x 2 <;> norm_num
  normalised := by
    intro n hn x _
    simp only [exBn, cpdsOf, netNodes, List.map_cons, List.map_nil, List.mem_cons,
      List.not_mem_nil, or_false] at hn
    have hdom : ∀ v ∈ [0, 1, 2], domOf exBn v = [true, false] := by decide
    rcases hn with rfl | rfl | rfl
    · rw [hdom _ (by simp)]
      simp [cpdFactor]; norm_num
    · rw [hdom _ (by simp)]
      simp only [cpdFactor, List.map_cons, List.map_nil, List.sum_cons, List.sum_nil,
        Function.update_self, Function.update_of_ne (by decide : (0 : ℕ) ≠ 1)]
      cases x 0 <;> norm_num
    · rw [hdom _ (by simp)]
      simp only [cpdFactor, List.map_cons, List.map_nil, List.sum_cons, List.sum_nil,
        Function.update_self, Function.update_of_ne (by decide : (0 : ℕ) ≠ 2),
        Function.update_of_ne (by decide : (1 : ℕ) ≠ 2)]
      cases x 0 <;> cases x 1 <;> norm_num

theorem exChain_fitted : Fitted exChain where
  wf := ⟨by decide, by decide, by decide, by decide⟩
  nonempty := by decide
  acyclic := acyclic_of_lt (by decide)
  connected := by
    have h0 : ∀ u ∈ (netNodes (cpdsOf exChain)).map Node.var,
        Graph.WConn (arrows (netNodes (cpdsOf exChain))) 1 u := by
      intro u hu
      have : u = 0 ∨ u = 1 ∨ u = 2 := by
        simpa [exChain, cpdsOf] using hu
      rcases this with rfl | rfl | rfl
      · exact (Graph.wconn_of_mem (by decide)).symm
      · exact Relation.ReflTransGen.refl
      · exact Graph.wconn_of_mem (by decide)
    intro u hu w hw
    exact (Graph.WConn.symm (h0 u hu)).trans (h0 w hw)
  states_nodup := by
    intro n hn
    simp only [exChain, cpdsOf, netNodes, List.map_cons, List.map_nil, List.mem_cons,
      List.not_mem_nil, or_false] at hn
    rcases hn with rfl | rfl | rfl <;> decide
  nonneg := by
    intro n hn x _
    simp only [exChain, cpdsOf, netNodes, List.map_cons, List.map_nil, List.mem_cons,
      List.not_mem_nil, or_false] at hn
    rcases hn with rfl | rfl | rfl
    · simp only [cpdFactor, List.map_cons, List.map_nil]
      cases x 0 <;> norm_num
    · simp only [cpdFactor, List.map_cons, List.map_nil]
      cases x 0 <;> cases x 1 <;> norm_num
    · simp only [cpdFactor, List.map_cons, List.map_nil]
      cases x 1 <;> cases x 2 <;> norm_num
  normalised := by
    intro n hn x _
    simp only [exChain, cpdsOf, netNodes, List.map_cons, List.map_nil, List.mem_cons,
      List.not_mem_nil, or_false] at hn
    have hdom : ∀ v ∈ [0, 1, 2], domOf exChain v = [true, false] := by decide
    rcases hn with rfl | rfl | rfl
    · rw [hdom _ (by simp)]
      simp [cpdFactor]; norm_num
    · rw [hdom _ (by simp)]
      simp only [cpdFactor, List.map_cons, List.map_nil, List.sum_cons, List.sum_nil,
        Function.update_self, Function.update_of_ne (by decide : (0 : ℕ) ≠ 1)]
      cases x 0 <;> norm_num
    · rw [hdom _ (by simp)]
      simp only [cpdFactor, List.map_cons, List.map_nil, List.sum_cons, List.sum_nil,
        Function.update_self, Function.update_of_ne (by decide : (1 : ℕ) ≠ 2)]
      cases x 1 <;> norm_num

theorem exBn_dom {v : ℕ} (hv : v ∈ exBn.map Prod.fst) : domOf exBn v = [true, false] := by
  have : ∀ v ∈ exBn.map Prod.fst, domOf exBn v = [true, false] := by decide
  exact this v hv

theorem exChain_dom {v : ℕ} (hv : v ∈ exChain.map Prod.fst) : domOf exChain v = [true, false] := by
  have : ∀ v ∈ exChain.map Prod.fst, domOf exChain v = [true, false] := by decide
  exact this v hv

/-- Two to one for `true`. -/
def exDist : Dist Bool ℚ := ⟨{true, false}, fun s => if s then 2/3 else 1/3⟩

theorem exDist_isDist : exDist.IsDist ([true, false] : List Bool).toFinset where
  keys := by decide
  sum := by simp [exDist]; norm_num
  nonneg := by
    intro s _
    simp only [exDist]
    cases s <;> norm_num

/-- In both networks an intervention on a parent node of the fresh engine is accepted. -/
theorem ex_do {bn : List (ℕ × Frame ℕ Bool ℚ)} (hf : Fitted bn)
    (hdom : ∀ v ∈ bn.map Prod.fst, domOf bn v = [true, false]) {e : Engine ℕ Bool ℚ}
    (he : Reach exNd bn e) {v : ℕ} (hp : ∃ q ∈ e.cpds, v ∈ q.2.parents) :
    ∃ e', e.doIntervention v (.dist exDist) = (e', .ok ()) ∧ Reach exNd bn e' ∧
      e'.cpds = setCpd e.cpds v (interventionCpd ℕ exDist) := by
  have hi := he.inv hf
  rcases hi.do_cases hf v (.dist exDist) with
    ⟨err, h, _, hno⟩ | ⟨d, c, e', hd, _, _, _, h, hi₁, hcp₁⟩
  · exfalso
    have hvm := hi.isParent_mem hf hp
    rw [hi.vars] at hvm
    have hvm' := hvm
    rw [← cpdsOf_vars, ← hi.orig_eq, ← lookup_isSome_iff] at hvm
    obtain ⟨c, hc⟩ := hvm
    refine hno ⟨hp, exDist, c, rfl, hc, ?_⟩
    rw [orig_states hf.nodup (hi.orig_eq ▸ lookup_mem hc), hdom v hvm']
    exact exDist_isDist
  · cases hd
    refine ⟨e', h, ?_, hcp₁⟩
    obtain ⟨okName, e₀, ops, h1, rfl⟩ := he
    refine ⟨okName, e₀, ops ++ [.doIt v (.dist exDist)], h1, ?_⟩
    simp [Engine.run, List.foldl_append, Engine.step] at h ⊢
    rw [h]

/-- A fresh engine on a fitted network. -/
theorem ex_fresh {bn : List (ℕ × Frame ℕ Bool ℚ)} (hf : Fitted bn) :
    ∃ e, Engine.create (fun _ => true) bn = .ok e ∧ Reach exNd bn e ∧ e.cpds = cpdsOf bn := by
  obtain ⟨e, h1, _, h3⟩ := Engine.create_ok hf (okName := fun _ => true) (fun _ _ => rfl)
  exact ⟨e, h1, ⟨_, e, [], h1, rfl⟩, h3⟩

/-- The hypotheses of `do_truncated_partial`, `do_own_marginal` and `do_nondescendants` are met by
an intervention in the middle of the network `0 → 1 → 2`, `0 → 2`: the arrow `0 → 1` is cut, the
graph stays connected, and the evidence `2 = true` has positive probability. -/
example : ∃ e e' : Engine ℕ Bool ℚ, Fitted exBn ∧ Reach exNd exBn e ∧
    e.doIntervention 1 (.dist exDist) = (e', .ok ()) ∧ Connected (netNodes e'.cpds) ∧
    0 < massWith (domOf exBn) (exBn.map Prod.fst) (truncated (netNodes e.cpds) 1 exDist.val)
      (fun _ => true) (Agrees [(2, true)]) ∧
    arrows (netNodes e.cpds) = [(0, 1), (0, 2), (1, 2)] ∧
    arrows (netNodes e'.cpds) = [(0, 2), (1, 2)] := by
  obtain ⟨e, _, hr, hcp⟩ := ex_fresh exBn_fitted
  obtain ⟨e', h1, _, h3⟩ := ex_do exBn_fitted (fun _ => exBn_dom) hr (v := 1)
    (by rw [hcp]; decide)
  have harr : arrows (netNodes e'.cpds) = [(0, 2), (1, 2)] := by
    rw [h3, hcp]; decide
  refine ⟨e, e', exBn_fitted, hr, h1, ?_, ?_, ?_, harr⟩
  · have hv : (netNodes e'.cpds).map Node.var = [0, 1, 2] := by rw [h3, hcp]; decide
    have h0 : ∀ u ∈ (netNodes e'.cpds).map Node.var,
        Graph.WConn (arrows (netNodes e'.cpds)) 2 u := by
      intro u hu
      rw [hv] at hu
      rw [harr]
      have : u = 0 ∨ u = 1 ∨ u = 2 := by simpa using hu
      rcases this with rfl | rfl | rfl
      · exact (Graph.wconn_of_mem (by decide)).symm
      · exact (Graph.wconn_of_mem (by decide)).symm
      · exact Relation.ReflTransGen.refl
    intro u hu w hw
    exact (Graph.WConn.symm (h0 u hu)).trans (h0 w hw)
  · rw [hcp]
    decide +kernel
  · rw [hcp]; decide

/-- **C23, disagreement.** In the network `0 → 1 → 2` an intervention on `1` is accepted, and no
query is answered afterwards: the cut graph falls apart and the join tree cannot be built.  So
the unrestricted form of `do_truncated_partial` is false. -/
theorem do_can_break_queries : ∃ e e' : Engine ℕ Bool ℚ, Fitted exChain ∧ Reach exNd exChain e ∧
    e.doIntervention 1 (.dist exDist) = (e', .ok ()) ∧
    ∀ nd : Nondet ℕ, nd.Legal → ∀ ev, ∃ err, e'.query nd ev = .error err := by
  obtain ⟨e, _, hr, hcp⟩ := ex_fresh exChain_fitted
  obtain ⟨e', h1, h2, h3⟩ := ex_do exChain_fitted (fun _ => exChain_dom) hr (v := 1)
    (by rw [hcp]; decide)
  refine ⟨e, e', exChain_fitted, hr, h1, ?_⟩
  intro nd hnd ev
  apply (h2.inv exChain_fitted).query_disconnected hnd exChain_fitted
  intro hc
  have hv : (netNodes e'.cpds).map Node.var = [0, 1, 2] := by rw [h3, hcp]; decide
  have harr : arrows (netNodes e'.cpds) = [(1, 2)] := by rw [h3, hcp]; decide
  have h01 := hc 0 (by rw [hv]; decide) 1 (by rw [hv]; decide)
  rw [harr] at h01
  have : ∀ w, Graph.WConn [(1, 2)] 0 w → w = 0 := by
    intro w hw
    induction hw with
    | refl => rfl
    | tail _ h ih =>
      subst ih
      rcases h with h | h <;> simp at h
  exact absurd (this 1 h01) (by decide)

/-- `do_rejects_iff` and `do_label_rejects_iff`: both outcomes occur. -/
example : ∃ e : Engine ℕ Bool ℚ, Reach exNd exBn e ∧
    (∃ err, (e.doIntervention 2 (.dist exDist)).2 = .error err) ∧
    (∃ err, (e.doIntervention 0 (.dist ⟨{true}, fun _ => 1⟩)).2 = .error err) ∧
    (e.doIntervention 0 (.dist exDist)).2 = .ok () := by
  obtain ⟨e, _, hr, hcp⟩ := ex_fresh exBn_fitted
  refine ⟨e, hr, ?_, ?_, ?_⟩
  · rw [(do_rejects_iff exBn_fitted hr _ _).1]
    left
    rw [hcp]; decide
  · rw [(do_rejects_iff exBn_fitted hr _ _).1]
    right; right; right
    decide
  · obtain ⟨e', h1, _⟩ := ex_do exBn_fitted (fun _ => exBn_dom) hr (v := 0)
      (by rw [hcp]; decide)
    rw [h1]

/-- `reset_restores` applies to a history with two interventions on one node, one on another, a
rejected one and a query. -/
example : ∃ e₀ : Engine ℕ Bool ℚ, Engine.create (fun _ => true) exBn = .ok e₀ ∧
    e₀.run exNd [.doIt 0 (.dist exDist), .doIt 1 (.label true true), .query [(2, true)],
      .doIt 0 (.label true false), .reset 0, .doIt 0 (.label false true), .reset 1] = e₀ := by
  obtain ⟨e₀, hc, hr, _⟩ := ex_fresh exBn_fitted
  refine ⟨e₀, hc, reset_restores exBn_fitted hc _ ?_⟩
  intro v ops₁ a ops₂ heq hok
  rcases ops₁ with _ | ⟨_, _ | ⟨_, _ | ⟨_, _ | ⟨_, _ | ⟨_, _ | ⟨o, _ | ⟨_, l⟩⟩⟩⟩⟩⟩⟩
  · simp at heq; obtain ⟨⟨rfl, rfl⟩, rfl⟩ := heq; simp
  · simp at heq; obtain ⟨rfl, ⟨rfl, rfl⟩, rfl⟩ := heq; simp
  · simp at heq
  · simp at heq; obtain ⟨rfl, rfl, rfl, ⟨rfl, rfl⟩, rfl⟩ := heq; simp
  · simp at heq
  · exfalso
    simp at heq
    obtain ⟨rfl, rfl, rfl, rfl, rfl, ⟨rfl, rfl⟩, rfl⟩ := heq
    obtain ⟨err, h⟩ := (do_label_rejects_iff (e := e₀.run exNd _) exBn_fitted
      ⟨_, e₀, _, hc, rfl⟩ 0 true).2
    rw [h] at hok; cases hok
  · simp at heq
  · simp at heq

/-- `do_commute`, `do_after_do`, `do_last_wins`: `0` and `1` are both parents of `2`, so both orders
are accepted. -/
example : ∃ e e₁ e₂ f₁ f₂ : Engine ℕ Bool ℚ, Reach exNd exBn e ∧
    e.doIntervention 0 (.dist exDist) = (e₁, .ok ()) ∧
    e₁.doIntervention 1 (.dist exDist) = (e₂, .ok ()) ∧
    e.doIntervention 1 (.dist exDist) = (f₁, .ok ()) ∧
    f₁.doIntervention 0 (.dist exDist) = (f₂, .ok ()) ∧ e₂ = f₂ := by
  obtain ⟨e, _, hr, hcp⟩ := ex_fresh exBn_fitted
  obtain ⟨e₁, h1, hr1, hc1⟩ := ex_do exBn_fitted (fun _ => exBn_dom) hr (v := 0)
    (by rw [hcp]; decide)
  obtain ⟨f₁, k1, kr1, kc1⟩ := ex_do exBn_fitted (fun _ => exBn_dom) hr (v := 1)
    (by rw [hcp]; decide)
  obtain ⟨e₂, h2, _, _⟩ := ex_do exBn_fitted (fun _ => exBn_dom) hr1 (v := 1)
    (by rw [hc1, hcp]; decide)
  obtain ⟨f₂, k2, _, _⟩ := ex_do exBn_fitted (fun _ => exBn_dom) kr1 (v := 0)
    (by rw [kc1, hcp]; decide)
  exact ⟨e, e₁, e₂, f₁, f₂, hr, h1, h2, k1, k2,
    do_commute exBn_fitted hr (by decide) h1 h2 k1 k2⟩

/-- **C25, disagreement.** One order can be accepted and the other rejected: in `0 → 1 → 2` the
intervention on `1` cuts `0` from its only child. -/
theorem do_order_matters : ∃ e e₁ e₂ f₁ : Engine ℕ Bool ℚ, Reach exNd exChain e ∧
    e.doIntervention 0 (.dist exDist) = (e₁, .ok ()) ∧
    e₁.doIntervention 1 (.dist exDist) = (e₂, .ok ()) ∧
    e.doIntervention 1 (.dist exDist) = (f₁, .ok ()) ∧
    ∃ err, (f₁.doIntervention 0 (.dist exDist)).2 = .error err := by
  obtain ⟨e, _, hr, hcp⟩ := ex_fresh exChain_fitted
  obtain ⟨e₁, h1, hr1, hc1⟩ := ex_do exChain_fitted (fun _ => exChain_dom) hr (v := 0)
    (by rw [hcp]; decide)
  obtain ⟨f₁, k1, kr1, kc1⟩ := ex_do exChain_fitted (fun _ => exChain_dom) hr (v := 1)
    (by rw [hcp]; decide)
  obtain ⟨e₂, h2, _, _⟩ := ex_do exChain_fitted (fun _ => exChain_dom) hr1 (v := 1)
    (by rw [hc1, hcp]; decide)
  refine ⟨e, e₁, e₂, f₁, hr, h1, h2, k1, ?_⟩
  rw [(do_rejects_iff exChain_fitted kr1 _ _).1]
  left
  rw [kc1, hcp]; decide

end Verif.BBN
