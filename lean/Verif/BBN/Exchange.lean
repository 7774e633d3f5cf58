import Verif.BBN.Rename

/-!
# C148: networks with the same distribution, and interventions

Two networks whose tables differ, but whose joint distributions are the same, also if the tables of some nodes are left out.  The engines cannot be told
apart by interventions on these nodes.
-/

namespace Verif.BBN

open Function

section
variable {V S K : Type} [LinearOrder V] [DecidableEq S] [Field K] [LinearOrder K] [IsStrictOrderedRing K]

omit [LinearOrder V] [DecidableEq S] [Field K] [LinearOrder K] [IsStrictOrderedRing K] in
theorem sumOver_dom [DecidableEq V] [AddCommMonoid K] {dom dom₂ : V → List S} {vs : List V} (h : ∀ v ∈ vs, (dom₂ v).Perm (dom v))
    (g : (V → S) → K) (x : V → S) : sumOver dom₂ vs g x = sumOver dom vs g x := by
  induction vs generalizing x with
  | nil => rfl
  | cons v vs ih =>
    rw [sumOver, sumOver, ((h v List.mem_cons_self).map _).sum_eq]
    congr 1
    exact List.map_congr_left fun s _ => ih (fun u hu => h u (List.mem_cons_of_mem _ hu)) _

/-- The factor of a node. -/
def factorOf (c : List (V × Cpd V S K)) (v : V) (x : V → S) : K := ((c.lookup v).map fun a => a.p (x v) (a.parents.map x)).getD 1

/-- Two networks that are the same, up to tables; the nodes in `F` have the same parents. -/
structure Exchange (F : V → Prop) (bn bn₂ : List (V × Frame V S K)) : Prop where
  nodes : (bn₂.map Prod.fst).Perm (bn.map Prod.fst)
  dom : ∀ v ∈ bn.map Prod.fst, (domOf bn₂ v).Perm (domOf bn v)
  fixed : ∀ v, F v → ∀ u, (u, v) ∈ arrows (netNodes (cpdsOf bn₂)) ↔ (u, v) ∈ arrows (netNodes (cpdsOf bn))
  links : ∀ u v, Graph.Link (arrows (netNodes (cpdsOf bn₂))) u v ↔ Graph.Link (arrows (netNodes (cpdsOf bn))) u v
  weight : ∀ J : Finset V, (∀ v ∈ J, F v) → ∀ x : V → S, (∀ v ∈ bn.map Prod.fst, x v ∈ domOf bn v) →
    ∏ v ∈ (bn.map Prod.fst).toFinset \ J, factorOf (cpdsOf bn₂) v x = ∏ v ∈ (bn.map Prod.fst).toFinset \ J, factorOf (cpdsOf bn) v x

/-- The engine when the interventions `I` are in force. -/
structure Under (I : V → Option (Dist S K)) (bn : List (V × Frame V S K)) (e : Engine V S K) : Prop where
  inv : e.Inv bn
  each : ∀ v ∈ bn.map Prod.fst, e.cpds.lookup v = match I v with
    | some d => some (interventionCpd V d)
    | none => (cpdsOf bn).lookup v
  dists : ∀ v d, I v = some d → v ∈ bn.map Prod.fst ∧ d.keys = (domOf bn v).toFinset

variable {I : V → Option (Dist S K)} {bn bn₂ : List (V × Frame V S K)} {e e₂ : Engine V S K} {F : V → Prop}

theorem states_of_lookup (hb : Fitted bn) {v : V} {c : Cpd V S K} (hc : (cpdsOf bn).lookup v = some c) : c.states = (domOf bn v).toFinset :=
  orig_states hb.nodup (lookup_mem hc)

theorem Under.states (h : Under I bn e) (hb : Fitted bn) {v : V} {c : Cpd V S K} (hv : v ∈ bn.map Prod.fst) (hc : e.cpds.lookup v = some c) :
    c.states = (domOf bn v).toFinset := by
  rw [h.each v hv] at hc
  cases hI : I v with
  | some d =>
    rw [hI] at hc
    cases hc
    exact (h.dists v d hI).2
  | none =>
    rw [hI] at hc
    exact states_of_lookup hb hc

theorem Under.arrow (h : Under I bn e) (hb : Fitted bn) {u v : V} :
    (u, v) ∈ arrows (netNodes e.cpds) ↔ I v = none ∧ (u, v) ∈ arrows (netNodes (cpdsOf bn)) := by
  have hn : (e.cpds.map Prod.fst).Nodup := by rw [h.inv.vars]; exact hb.nodup
  have hn' : ((cpdsOf bn).map Prod.fst).Nodup := by rw [cpdsOf_vars]; exact hb.nodup
  rw [mem_arrows_netNodes, mem_arrows_netNodes]
  constructor
  · rintro ⟨a, ha, hu, huv⟩
    have hv : v ∈ bn.map Prod.fst := by rw [← h.inv.vars]; exact List.mem_map_of_mem (f := Prod.fst) ha
    have hl := lookup_of_mem_nodup hn ha
    rw [h.each v hv] at hl
    cases hI : I v with
    | some d =>
      rw [hI] at hl
      cases hl
      simp [interventionCpd] at hu
    | none =>
      rw [hI] at hl
      exact ⟨rfl, a, lookup_mem hl, hu, huv⟩
  · rintro ⟨hI, a, ha, hu, huv⟩
    have hv : v ∈ bn.map Prod.fst := by rw [← cpdsOf_vars]; exact List.mem_map_of_mem (f := Prod.fst) ha
    refine ⟨a, lookup_mem ?_, hu, huv⟩
    rw [h.each v hv, hI]
    exact lookup_of_mem_nodup hn' ha

theorem Under.isParent (h : Under I bn e) (hb : Fitted bn) (v : V) : IsParent e.cpds v ↔ ∃ w, (v, w) ∈ arrows (netNodes e.cpds) := by
  constructor
  · rintro ⟨⟨w, a⟩, hq, hv⟩
    refine ⟨w, mem_arrows_netNodes.2 ⟨a, hq, hv, ?_⟩⟩
    rintro rfl
    have hw := (h.inv.wf hb)
    have := hw.args_nodup ⟨cpdFactor (v, a), v⟩ (List.mem_map_of_mem hq)
    exact (List.nodup_cons.1 this).1 hv
  · rintro ⟨w, hw⟩
    obtain ⟨a, ha, hv, -⟩ := mem_arrows_netNodes.1 hw
    exact ⟨_, ha, hv⟩

/-- The nodes with the same parents have the same children. -/
theorem Exchange.children (hx : Exchange F bn bn₂) (hb : Fitted bn) (hb₂ : Fitted bn₂) {v : V} (hv : F v) (w : V) :
    (v, w) ∈ arrows (netNodes (cpdsOf bn₂)) ↔ (v, w) ∈ arrows (netNodes (cpdsOf bn)) := by
  have key : ∀ {A B : List (V × V)}, Graph.Acyclic A → (∀ u, (u, v) ∈ B ↔ (u, v) ∈ A) → (∀ a b, Graph.Link A a b → Graph.Link B a b) →
      (v, w) ∈ A → (v, w) ∈ B := by
    intro A B hA hf hl h
    rcases hl v w (Or.inl h) with h' | h'
    · exact h'
    · exact absurd (Relation.TransGen.tail (Relation.TransGen.single h) ((hf w).1 h')) (hA v)
  exact ⟨key hb₂.acyclic (fun u => (hx.fixed v hv u).symm) fun a b => (hx.links a b).1,
    key hb.acyclic (fun u => hx.fixed v hv u) fun a b => (hx.links a b).2⟩

/-- Two engines under the same interventions. -/
structure SameUnder (F : V → Prop) (I : V → Option (Dist S K)) (bn bn₂ : List (V × Frame V S K)) (e e₂ : Engine V S K) : Prop where
  one : Under I bn e
  two : Under I bn₂ e₂
  where_ : ∀ v d, I v = some d → F v

theorem SameUnder.link (h : SameUnder F I bn bn₂ e e₂) (hx : Exchange F bn bn₂) (hb : Fitted bn) (hb₂ : Fitted bn₂) (u v : V) :
    Graph.Link (arrows (netNodes e₂.cpds)) u v ↔ Graph.Link (arrows (netNodes e.cpds)) u v := by
  unfold Graph.Link
  rw [h.one.arrow hb, h.one.arrow hb, h.two.arrow hb₂, h.two.arrow hb₂]
  cases hu : I u with
  | some d =>
    simp only [reduceCtorEq, false_and, or_false]
    rw [hx.children hb hb₂ (h.where_ u d hu)]
  | none =>
    cases hv : I v with
    | some d =>
      simp only [reduceCtorEq, false_and, false_or]
      rw [hx.children hb hb₂ (h.where_ v d hv)]
    | none =>
      simp only [true_and]
      exact hx.links u v

theorem SameUnder.connected (h : SameUnder F I bn bn₂ e e₂) (hx : Exchange F bn bn₂) (hb : Fitted bn) (hb₂ : Fitted bn₂) :
    Connected (netNodes e₂.cpds) ↔ Connected (netNodes e.cpds) := by
  have hl : Graph.Link (arrows (netNodes e₂.cpds)) = Graph.Link (arrows (netNodes e.cpds)) := by
    funext u v
    exact propext (h.link hx hb hb₂ u v)
  unfold Connected Graph.WConn
  rw [hl, netNodes_vars, netNodes_vars, h.one.inv.vars, h.two.inv.vars]
  simp only [hx.nodes.mem_iff]

theorem SameUnder.isParent (h : SameUnder F I bn bn₂ e e₂) (hx : Exchange F bn bn₂) (hb : Fitted bn) (hb₂ : Fitted bn₂) {v : V} (hv : F v) :
    IsParent e₂.cpds v ↔ IsParent e.cpds v := by
  rw [h.one.isParent hb, h.two.isParent hb₂]
  refine exists_congr fun w => ?_
  rw [h.one.arrow hb, h.two.arrow hb₂, hx.children hb hb₂ hv]

theorem Under.set (h : Under I bn e) {e' : Engine V S K} {v : V} {d : Dist S K} (hv : v ∈ bn.map Prod.fst) (hd : d.keys = (domOf bn v).toFinset)
    (hi : e'.Inv bn) (hc : e'.cpds = setCpd e.cpds v (interventionCpd V d)) : Under (update I v (some d)) bn e' where
  inv := hi
  each := by
    intro w hw
    rw [hc, lookup_setCpd]
    by_cases e : w = v
    · subst e
      obtain ⟨c, hc'⟩ := (lookup_isSome_iff e.cpds w).2 (by rw [h.inv.vars]; exact hw)
      rw [if_pos rfl, hc', update_self]
      rfl
    · rw [if_neg e, update_of_ne e, h.each w hw]
  dists := by
    intro w d' hI
    by_cases e : w = v
    · subst e
      rw [update_self] at hI
      cases hI
      exact ⟨hv, hd⟩
    · rw [update_of_ne e] at hI
      exact h.dists w d' hI

theorem Under.unset (h : Under I bn e) {e' : Engine V S K} {v : V} {c : Cpd V S K} (hl : (cpdsOf bn).lookup v = some c)
    (hi : e'.Inv bn) (hc : e'.cpds = setCpd e.cpds v c) : Under (update I v none) bn e' where
  inv := hi
  each := by
    intro w hw
    rw [hc, lookup_setCpd]
    by_cases e : w = v
    · subst e
      obtain ⟨c', hc'⟩ := (lookup_isSome_iff e.cpds w).2 (by rw [h.inv.vars]; exact hw)
      rw [if_pos rfl, hc', update_self, hl]
      rfl
    · rw [if_neg e, update_of_ne e, h.each w hw]
  dists := by
    intro w d' hI
    by_cases e : w = v
    · subst e
      rw [update_self] at hI
      cases hI
    · rw [update_of_ne e] at hI
      exact h.dists w d' hI

theorem SameUnder.doIt (h : SameUnder F I bn bn₂ e e₂) (hx : Exchange F bn bn₂) (hb : Fitted bn) (hb₂ : Fitted bn₂) {v : V} (hv : F v)
    (a : DoArg S K) : (e₂.doIntervention v a).2 = (e.doIntervention v a).2 ∧
      ∃ I, SameUnder F I bn bn₂ (e.doIntervention v a).1 (e₂.doIntervention v a).1 := by
  have hpar := h.isParent hx hb hb₂ hv
  by_cases hp : IsParent e.cpds v
  swap
  · rcases h.one.inv.do_cases hb v a with ⟨err, e1, e2, -⟩ | ⟨_, _, _, _, _, _, hp', _⟩
    swap
    · exact absurd hp' hp
    rcases h.two.inv.do_cases hb₂ v a with ⟨err₂, e3, e4, -⟩ | ⟨_, _, _, _, _, _, hp', _⟩
    swap
    · exact absurd (hpar.1 hp') hp
    rw [e1, e3]
    rcases e2 with rfl | ⟨-, h', -⟩
    swap
    · exact absurd h' hp
    rcases e4 with rfl | ⟨-, h', -⟩
    swap
    · exact absurd (hpar.1 h') hp
    exact ⟨rfl, I, h⟩
  by_cases hfalse : ∃ s, a = .label false s
  · obtain ⟨s, rfl⟩ := hfalse
    rw [h.one.inv.do_label hp, h.two.inv.do_label (hpar.2 hp)]
    exact ⟨rfl, I, h⟩
  have hvm : v ∈ bn.map Prod.fst := by rw [← h.one.inv.vars]; exact h.one.inv.isParent_mem hb hp
  have hvm₂ : v ∈ bn₂.map Prod.fst := hx.nodes.mem_iff.2 hvm
  have hdd : (domOf bn₂ v).toFinset = (domOf bn v).toFinset := by
    ext s
    rw [List.mem_toFinset, List.mem_toFinset, (hx.dom v hvm).mem_iff]
  obtain ⟨c, hc⟩ := (lookup_isSome_iff e.cpds v).2 (by rw [h.one.inv.vars]; exact hvm)
  obtain ⟨c₂, hc₂⟩ := (lookup_isSome_iff e₂.cpds v).2 (by rw [h.two.inv.vars]; exact hvm₂)
  have hcc : c₂.states = c.states := by rw [h.one.states hb hvm hc, h.two.states hb₂ hvm₂ hc₂, hdd]
  obtain ⟨o, ho⟩ := (lookup_isSome_iff (cpdsOf bn) v).2 (by rw [cpdsOf_vars]; exact hvm)
  obtain ⟨o₂, ho₂⟩ := (lookup_isSome_iff (cpdsOf bn₂) v).2 (by rw [cpdsOf_vars]; exact hvm₂)
  have hoo : o₂.states = o.states := by rw [states_of_lookup hb ho, states_of_lookup hb₂ ho₂, hdd]
  obtain ⟨d, hd, hd₂⟩ : ∃ d, e.argDist v a = some d ∧ e₂.argDist v a = some d := by
    cases a with
    | label b s =>
      cases b with
      | false => exact absurd ⟨s, rfl⟩ hfalse
      | true => exact ⟨_, by rw [Engine.argDist, hc]; rfl, by rw [Engine.argDist, hc₂, Option.map_some, hcc]⟩
    | dist d => exact ⟨d, rfl, rfl⟩
  rw [← h.one.inv.orig_eq] at ho
  rw [← h.two.inv.orig_eq] at ho₂
  rcases h.one.inv.do_cases hb v a with ⟨err, e1, e2, e3⟩ | ⟨d', c', e', k1, k2, k3, -, k5, k6, k7⟩
  · rcases h.two.inv.do_cases hb₂ v a with ⟨err₂, e4, e5, -⟩ | ⟨d', c', e', k1, k2, k3, _⟩
    · rw [e1, e4]
      rcases e2 with rfl | ⟨-, -, h'⟩
      swap
      · exact absurd h' hfalse
      rcases e5 with rfl | ⟨-, -, h'⟩
      swap
      · exact absurd h' hfalse
      exact ⟨rfl, I, h⟩
    · rw [hd₂] at k1
      rw [ho₂] at k2
      cases k1; cases k2
      exact absurd ⟨hp, d, o, hd, ho, hoo ▸ k3⟩ e3
  · rw [hd] at k1
    rw [ho] at k2
    cases k1; cases k2
    rcases h.two.inv.do_cases hb₂ v a with ⟨err₂, -, -, e6⟩ | ⟨d', c', e'₂, l1, l2, l3, -, l5, l6, l7⟩
    · exact absurd ⟨hpar.2 hp, d, o₂, hd₂, ho₂, hoo.symm ▸ k3⟩ e6
    · rw [hd₂] at l1
      cases l1
      rw [k5, l5]
      rw [h.one.inv.orig_eq] at ho
      rw [h.two.inv.orig_eq] at ho₂
      have hk : d.keys = (domOf bn v).toFinset := by rw [k3.keys, states_of_lookup hb ho]
      refine ⟨rfl, update I v (some d), h.one.set hvm hk k6 k7, h.two.set hvm₂ (hk.trans hdd.symm) l6 l7, ?_⟩
      intro w d' hI
      by_cases e : w = v
      · exact e ▸ hv
      · rw [update_of_ne e] at hI
        exact h.where_ w d' hI

theorem SameUnder.reset (h : SameUnder F I bn bn₂ e e₂) (hx : Exchange F bn bn₂) (hb : Fitted bn) (hb₂ : Fitted bn₂) (v : V) :
    (e₂.resetDo v).2 = (e.resetDo v).2 ∧ ∃ I, SameUnder F I bn bn₂ (e.resetDo v).1 (e₂.resetDo v).1 := by
  have hmem : v ∈ bn₂.map Prod.fst ↔ v ∈ bn.map Prod.fst := hx.nodes.mem_iff
  rcases h.one.inv.reset_cases hb v with ⟨h1, h2⟩ | ⟨h1, c, e', h3, h4, h5, h6⟩
  · rcases h.two.inv.reset_cases hb₂ v with ⟨h1', h2'⟩ | ⟨h1', _⟩
    · rw [h2, h2']; exact ⟨rfl, I, h⟩
    · exact absurd (hmem.1 h1') h1
  · rcases h.two.inv.reset_cases hb₂ v with ⟨h1', h2'⟩ | ⟨h1', c₂, e'₂, h3', h4', h5', h6'⟩
    · exact absurd (hmem.2 h1) h1'
    · rw [h4, h4']
      rw [h.one.inv.orig_eq] at h3
      rw [h.two.inv.orig_eq] at h3'
      refine ⟨rfl, update I v none, h.one.unset h3 h5 h6, h.two.unset h3' h5' h6', ?_⟩
      intro w d' hI
      by_cases e : w = v
      · subst e
        rw [update_self] at hI
        cases hI
      · rw [update_of_ne e] at hI
        exact h.where_ w d' hI

/-- The same histories, with interventions on nodes in `F` only, leave the engines under the same interventions. -/
theorem SameUnder.run (h : SameUnder F I bn bn₂ e e₂) (hx : Exchange F bn bn₂) (hb : Fitted bn) (hb₂ : Fitted bn₂) {nd nd₂ : Nondet V}
    {ops : List (Op V S K)} (ho : ∀ v a, .doIt v a ∈ ops → F v) : ∃ I, SameUnder F I bn bn₂ (e.run nd ops) (e₂.run nd₂ ops) := by
  induction ops generalizing I e e₂ with
  | nil => exact ⟨I, h⟩
  | cons op ops ih =>
    have ho' : ∀ v a, .doIt v a ∈ ops → F v := fun v a hm => ho v a (List.mem_cons_of_mem _ hm)
    cases op with
    | doIt v a =>
      obtain ⟨I', h'⟩ := (h.doIt hx hb hb₂ (ho v a List.mem_cons_self) a).2
      exact ih h' ho'
    | reset v =>
      obtain ⟨I', h'⟩ := (h.reset hx hb hb₂ v).2
      exact ih h' ho'
    | query ev => exact ih h ho'

theorem SameUnder.joint (h : SameUnder F I bn bn₂ e e₂) (hx : Exchange F bn bn₂) (hb : Fitted bn) (hb₂ : Fitted bn₂) {x : V → S}
    (hv : ∀ v ∈ bn.map Prod.fst, x v ∈ domOf bn v) : joint (netNodes e₂.cpds) x = joint (netNodes e.cpds) x := by
  have key : ∀ {bn : List (V × Frame V S K)} {e : Engine V S K}, Under I bn e → Fitted bn → BBN.joint (netNodes e.cpds) x =
      (∏ v ∈ (bn.map Prod.fst).toFinset.filter (fun v => (I v).isSome), ((I v).map fun d => (interventionCpd V d).p (x v) []).getD 1) *
        ∏ v ∈ (bn.map Prod.fst).toFinset \ (bn.map Prod.fst).toFinset.filter (fun v => (I v).isSome), factorOf (cpdsOf bn) v x := by
    intro bn e h hb
    have hn : (e.cpds.map Prod.fst).Nodup := by rw [h.inv.vars]; exact hb.nodup
    rw [joint_eq_lookup hn, h.inv.vars, ← List.prod_toFinset _ hb.nodup,
      ← Finset.prod_filter_mul_prod_filter_not (bn.map Prod.fst).toFinset (fun v => (I v).isSome), ← Finset.filter_not]
    congr 1
    · refine Finset.prod_congr rfl fun v hv => ?_
      obtain ⟨hv, hI⟩ := Finset.mem_filter.1 hv
      obtain ⟨d, hd⟩ := Option.isSome_iff_exists.1 hI
      rw [h.each v (List.mem_toFinset.1 hv), hd]
      rfl
    · refine Finset.prod_congr rfl fun v hv => ?_
      obtain ⟨hv, hI⟩ := Finset.mem_filter.1 hv
      rw [h.each v (List.mem_toFinset.1 hv), Option.not_isSome_iff_eq_none.1 hI]
      rfl
  have hnn : (bn₂.map Prod.fst).toFinset = (bn.map Prod.fst).toFinset := by
    ext v
    rw [List.mem_toFinset, List.mem_toFinset, hx.nodes.mem_iff]
  rw [key h.one hb, key h.two hb₂, hnn, hx.weight _ _ x hv]
  intro v hv
  obtain ⟨d, hd⟩ := Option.isSome_iff_exists.1 (Finset.mem_filter.1 hv).2
  exact h.where_ v d hd

theorem SameUnder.query (h : SameUnder F I bn bn₂ e e₂) (hx : Exchange F bn bn₂) (hb : Fitted bn) (hb₂ : Fitted bn₂) {nd nd₂ : Nondet V}
    (hnd : nd.Legal) (hnd₂ : nd₂.Legal) {x₀ : V → S} (hx₀ : ∀ v ∈ bn.map Prod.fst, x₀ v ∈ domOf bn v) {ev : List (V × S)}
    (hk : (ev.map Prod.fst).Nodup) :
    (∃ out out₂, e.query nd ev = .ok out ∧ e₂.query nd₂ ev = .ok out₂ ∧ SameAnswer id (fun _ => id) out out₂) ∨
      (∃ err, e.query nd ev = .error err) ∧ ∃ err, e₂.query nd₂ ev = .error err := by
  have hx₀' : ∀ v ∈ bn₂.map Prod.fst, x₀ v ∈ domOf bn₂ v := by
    intro v hv
    have hv' := hx.nodes.mem_iff.1 hv
    rw [(hx.dom v hv').mem_iff]
    exact hx₀ v hv'
  have hgood : (∀ p ∈ ev, p.1 ∈ bn₂.map Prod.fst ∧ p.2 ∈ domOf bn₂ p.1) ↔ ∀ p ∈ ev, p.1 ∈ bn.map Prod.fst ∧ p.2 ∈ domOf bn p.1 := by
    refine forall₂_congr fun p _ => ?_
    rw [hx.nodes.mem_iff]
    refine and_congr_right fun hp => ?_
    rw [(hx.dom _ hp).mem_iff]
  by_cases hg : ∀ p ∈ ev, p.1 ∈ bn.map Prod.fst ∧ p.2 ∈ domOf bn p.1
  swap
  · exact Or.inr ⟨h.one.inv.query_bad hnd hb hx₀ hk hg, h.two.inv.query_bad hnd₂ hb₂ hx₀' hk fun h' => hg (hgood.1 h')⟩
  by_cases hc : Connected (netNodes e.cpds)
  swap
  · exact Or.inr ⟨h.one.inv.query_disconnected hnd hb hc ev,
      h.two.inv.query_disconnected hnd₂ hb₂ (fun h' => hc ((h.connected hx hb hb₂).1 h')) ev⟩
  left
  obtain ⟨out, ho, hr⟩ := h.one.inv.query_answers hnd hb hc hx₀ hk hg
  obtain ⟨out₂, ho₂, hr₂⟩ := h.two.inv.query_answers hnd₂ hb₂ ((h.connected hx hb hb₂).2 hc) hx₀' hk (hgood.2 hg)
  have hM : ∀ (A : (V → S) → Prop) [DecidablePred A],
      massOf (domOf bn₂) (netNodes e₂.cpds) x₀ A = massOf (domOf bn) (netNodes e.cpds) x₀ A := by
    intro A _
    rw [massOf_eq_sumOver, massOf_eq_sumOver, netNodes_vars, netNodes_vars, h.one.inv.vars, h.two.inv.vars, sumOver_perm _ hx.nodes,
      sumOver_dom hx.dom]
    refine sumOver_congr_on _ _ fun y _ hy => ?_
    rw [h.joint hx hb hb₂ hy]
  refine ⟨out, out₂, ho, ho₂, hr.renamed hr₂ (by rw [List.map_id]; exact hx.nodes) (fun v hv => by rw [List.map_id]; exact hx.dom v hv)
    fun v hv s => ?_⟩
  simp only [id_eq, hM]

end

end Verif.BBN
