import Verif.BBN.Engine

/-!
# Invariant of the inference engine
-/

namespace Verif.BBN
open Function

section
variable {V S K : Type} [LinearOrder V] [DecidableEq S]

/-- The network described by a dictionary of CPDs. -/
def netNodes [Zero K] (cpds : List (V × Cpd V S K)) : List (Node V S K) :=
  cpds.map fun q => ⟨cpdFactor q, q.1⟩

@[simp] theorem netNodes_vars [Zero K] (cpds : List (V × Cpd V S K)) :
    (netNodes cpds).map Node.var = cpds.map Prod.fst := by
  simp [netNodes, Function.comp_def]

theorem netNodes_factors [Zero K] (cpds : List (V × Cpd V S K)) :
    (netNodes cpds).map Node.toFactor = (createFns cpds).map Prod.snd := by
  simp [netNodes, createFns, Function.comp_def]

theorem Connected.perm {l l' : List (Node V S K)} (h : Connected l) (hp : l.Perm l') :
    Connected l' := by
  intro u hu w hw
  refine Graph.wconn_mono ?_ (h u ((hp.map Node.var).mem_iff.2 hu) w
    ((hp.map Node.var).mem_iff.2 hw))
  rintro ⟨a, b⟩ he
  obtain ⟨n, hn, hr⟩ := link_arrows.1 he
  exact link_arrows.2 ⟨n, hp.mem_iff.1 hn, hr⟩

theorem acyclic_mono {E F : List (V × V)} (h : ∀ e ∈ E, e ∈ F) (hF : Graph.Acyclic F) :
    Graph.Acyclic E := by
  intro v hv
  apply hF v
  refine Relation.TransGen.mono ?_ v v hv
  intro a b hab
  exact h _ hab

theorem IsNetwork.perm [Semiring K] [LE K] {dom : V → List S} {l l' : List (Node V S K)}
    (h : IsNetwork dom l) (hp : l.Perm l') : IsNetwork dom l' where
  wf := h.wf.perm hp
  nonempty := by
    rintro rfl
    exact h.nonempty hp.eq_nil
  acyclic := acyclic_mono (fun e he => by
    obtain ⟨a, b⟩ := e
    obtain ⟨n, hn, hr⟩ := link_arrows.1 he
    exact link_arrows.2 ⟨n, hp.mem_iff.2 hn, hr⟩) h.acyclic
  connected := h.connected.perm hp
  states_nodup := fun n hn => h.states_nodup n (hp.mem_iff.2 hn)
  nonneg := fun n hn => h.nonneg n (hp.mem_iff.2 hn)
  normalised := fun n hn => h.normalised n (hp.mem_iff.2 hn)

theorem lookup_map_snd {α β γ : Type} [BEq α] (f : α → β → γ) (l : List (α × β)) (a : α)
    [LawfulBEq α] :
    (l.map fun q => (q.1, f q.1 q.2)).lookup a = (l.lookup a).map (f a) := by
  induction l with
  | nil => rfl
  | cons q l ih =>
    obtain ⟨x, y⟩ := q
    simp only [List.map_cons, List.lookup_cons]
    split
    · rename_i h
      have : a = x := by simpa using h
      simp [this]
    · exact ih

theorem lookup_isSome_iff {α β : Type} [BEq α] [LawfulBEq α] (l : List (α × β)) (a : α) :
    (∃ b, l.lookup a = some b) ↔ a ∈ l.map Prod.fst := by
  induction l with
  | nil => simp
  | cons q l ih =>
    obtain ⟨x, y⟩ := q
    simp only [List.lookup_cons, List.map_cons, List.mem_cons]
    split
    · rename_i h
      have : a = x := by simpa using h
      simp [this]
    · rename_i h
      have : a ≠ x := by simpa using h
      simp [this, ih]

/-- `_generate_bbn` succeeds on every acyclic network. -/
theorem Engine.generate_ok [Zero K] (e : Engine V S K) (hw : NodesWF (netNodes e.cpds))
    (hac : Graph.Acyclic (arrows (netNodes e.cpds))) :
    ∃ nodes, getOriginalFactors ((createFns e.cpds).map Prod.snd) = .ok nodes ∧
      nodes.Perm (netNodes e.cpds) ∧
      e.generate = ({ e with fns := createFns e.cpds, bbn := nodes }, .ok ()) := by
  obtain ⟨res, h1, h2, _⟩ := getOriginalFactors_spec hw hac
  rw [netNodes_factors] at h1
  exact ⟨res, h1, h2, by simp only [Engine.generate, h1]⟩

end

section
variable {V S K : Type} [LinearOrder V] [DecidableEq S] [Field K] [LinearOrder K]
  [IsStrictOrderedRing K]

/-- A distribution over the states `st`. -/
structure Dist.IsDist (d : Dist S K) (st : Finset S) : Prop where
  keys : d.keys = st
  sum : ∑ s ∈ d.keys, d.val s = 1
  nonneg : ∀ s ∈ d.keys, 0 ≤ d.val s

/-- What holds of every engine built from the fitted network `bn`. -/
structure Engine.Inv (bn : List (V × Frame V S K)) (e : Engine V S K) : Prop where
  dom_eq : e.dom = domOf bn
  orig_eq : e.orig = cpdsOf bn
  vars : e.cpds.map Prod.fst = bn.map Prod.fst
  each : ∀ q ∈ e.cpds, q ∈ e.orig ∨ ∃ c, (q.1, c) ∈ e.orig ∧ ∃ d : Dist S K,
    d.IsDist c.states ∧ q.2 = interventionCpd V d
  fns_eq : e.fns = createFns e.cpds
  bbn_ok : getOriginalFactors (e.fns.map Prod.snd) = .ok e.bbn

/-- `bn` is a fitted network: see `IsNetwork`. -/
def Fitted (bn : List (V × Frame V S K)) : Prop :=
  IsNetwork (domOf bn) (netNodes (cpdsOf bn))

theorem Fitted.nodup {bn : List (V × Frame V S K)} (h : Fitted bn) :
    (bn.map Prod.fst).Nodup := by
  have := h.wf.nodup
  rw [netNodes_vars] at this
  simpa [cpdsOf, Function.comp_def] using this

omit [Field K] [LinearOrder K] [IsStrictOrderedRing K] in
theorem cpdsOf_vars (bn : List (V × Frame V S K)) :
    (cpdsOf bn).map Prod.fst = bn.map Prod.fst := by
  simp [cpdsOf, Function.comp_def]

omit [Field K] [LinearOrder K] [IsStrictOrderedRing K] in
/-- The states of an original CPD are the domain of its variable. -/
theorem orig_states {bn : List (V × Frame V S K)} (h : (bn.map Prod.fst).Nodup) {v : V}
    {c : Cpd V S K} (hc : (v, c) ∈ cpdsOf bn) : c.states = (domOf bn v).toFinset := by
  obtain ⟨⟨w, f⟩, hq, he⟩ := List.mem_map.1 hc
  simp only [Prod.mk.injEq] at he
  obtain ⟨rfl, rfl⟩ := he
  simp only [domOf, lookup_of_mem_nodup h hq]

section
variable {bn : List (V × Frame V S K)} {e : Engine V S K}

theorem Engine.Inv.mem_vars (hi : e.Inv bn) (v : V) :
    v ∈ e.cpds.map Prod.fst ↔ v ∈ (netNodes (cpdsOf bn)).map Node.var := by
  rw [netNodes_vars, cpdsOf_vars, hi.vars]

/-- A node of the current network is an original node or a root. -/
theorem Engine.Inv.node (hi : e.Inv bn) {n : Node V S K}
    (hn : n ∈ netNodes e.cpds) : n ∈ netNodes (cpdsOf bn) ∨
      ∃ c, (n.var, c) ∈ cpdsOf bn ∧ ∃ d : Dist S K, d.IsDist c.states ∧
        n = ⟨cpdFactor (n.var, interventionCpd V d), n.var⟩ := by
  obtain ⟨q, hq, rfl⟩ := List.mem_map.1 hn
  rcases hi.each q hq with h | ⟨c, hc, d, hd, he⟩
  · exact Or.inl (List.mem_map_of_mem (f := fun q : V × Cpd V S K =>
      (⟨cpdFactor q, q.1⟩ : Node V S K)) (hi.orig_eq ▸ h))
  · refine Or.inr ⟨c, hi.orig_eq ▸ hc, d, hd, ?_⟩
    rw [← he]

theorem Engine.Inv.wf (hi : e.Inv bn) (hf : Fitted bn) : NodesWF (netNodes e.cpds) where
  nodup := by rw [netNodes_vars, hi.vars]; exact hf.nodup
  var_mem := by
    intro n hn
    obtain ⟨q, _, rfl⟩ := List.mem_map.1 hn
    simp [cpdFactor]
  args_nodup := by
    intro n hn
    rcases hi.node hn with h | ⟨c, _, d, _, he⟩
    · exact hf.wf.args_nodup n h
    · rw [he]; simp [cpdFactor, interventionCpd]
  args_sub := by
    intro n hn a ha
    rw [netNodes_vars, hi.mem_vars]
    rcases hi.node hn with h | ⟨c, hc, d, _, he⟩
    · exact hf.wf.args_sub n h a ha
    · rw [he] at ha
      simp only [cpdFactor, interventionCpd, List.mem_singleton] at ha
      rw [ha, netNodes_vars]
      exact List.mem_map_of_mem (f := Prod.fst) hc

theorem Engine.Inv.arrows_sub (hi : e.Inv bn) :
    ∀ a ∈ arrows (netNodes e.cpds), a ∈ arrows (netNodes (cpdsOf bn)) := by
  rintro ⟨u, w⟩ h
  obtain ⟨n, hn, hv, hu, huw⟩ := link_arrows.1 h
  rcases hi.node hn with h | ⟨c, _, d, _, he⟩
  · exact link_arrows.2 ⟨n, h, hv, hu, huw⟩
  · rw [he] at hu
    simp only [cpdFactor, interventionCpd, List.mem_singleton] at hu
    exact absurd (hu.trans hv) huw

theorem Engine.Inv.acyclic (hi : e.Inv bn) (hf : Fitted bn) :
    Graph.Acyclic (arrows (netNodes e.cpds)) :=
  acyclic_mono hi.arrows_sub hf.acyclic

theorem sum_finset_list {l : List S} (hl : l.Nodup) (f : S → K) :
    ∑ s ∈ l.toFinset, f s = (l.map f).sum := by
  rw [List.sum_toFinset f hl]

theorem Engine.Inv.dom_nodup (hi : e.Inv bn) (hf : Fitted bn) {v : V}
    (hv : v ∈ e.cpds.map Prod.fst) : (e.dom v).Nodup := by
  rw [hi.mem_vars] at hv
  obtain ⟨n, hn, rfl⟩ := List.mem_map.1 hv
  rw [hi.dom_eq]
  exact hf.states_nodup n hn

theorem Engine.Inv.nonneg (hi : e.Inv bn) (hf : Fitted bn) : NonNeg e.dom (netNodes e.cpds) := by
  intro n hn x hx
  rw [hi.dom_eq] at hx
  rcases hi.node hn with h | ⟨c, hc, d, hd, he⟩
  · exact hf.nonneg n h x hx
  · rw [he]
    simp only [cpdFactor, interventionCpd, List.map_cons, List.map_nil]
    split
    · exact hd.nonneg _ (by assumption)
    · exact le_rfl

theorem Engine.Inv.normalised (hi : e.Inv bn) (hf : Fitted bn) :
    Normalised e.dom (netNodes e.cpds) := by
  intro n hn x hx
  rw [hi.dom_eq] at hx ⊢
  have hnv : n.var ∈ e.cpds.map Prod.fst := by
    rw [← netNodes_vars]; exact List.mem_map_of_mem hn
  have hnd := hi.dom_nodup hf hnv
  rw [hi.dom_eq] at hnd
  rcases hi.node hn with h | ⟨c, hc, d, hd, he⟩
  · exact hf.normalised n h x hx
  · rw [he]
    simp only [cpdFactor, interventionCpd, List.map_cons, List.map_nil, update_self]
    rw [← sum_finset_list hnd, ← orig_states hf.nodup hc, ← hd.keys, ← hd.sum]
    apply Finset.sum_congr rfl
    intro s hs
    rw [if_pos hs]

theorem Engine.Inv.nonempty (hi : e.Inv bn) (hf : Fitted bn) : netNodes e.cpds ≠ [] := by
  intro h
  have h1 : e.cpds.map Prod.fst = [] := by rw [← netNodes_vars, h]; rfl
  rw [hi.vars] at h1
  apply hf.nonempty
  have : bn = [] := by simpa using h1
  rw [this]; rfl

/-- The current network, as far as it is connected. -/
theorem Engine.Inv.network (hi : e.Inv bn) (hf : Fitted bn)
    (hc : Connected (netNodes e.cpds)) : IsNetwork e.dom (netNodes e.cpds) where
  wf := hi.wf hf
  nonempty := hi.nonempty hf
  acyclic := hi.acyclic hf
  connected := hc
  states_nodup := fun n hn => hi.dom_nodup hf (by
    rw [← netNodes_vars]; exact List.mem_map_of_mem hn)
  nonneg := hi.nonneg hf
  normalised := hi.normalised hf

theorem Engine.Inv.bbn_perm (hi : e.Inv bn) (hf : Fitted bn) :
    e.bbn.Perm (netNodes e.cpds) := by
  obtain ⟨nodes, h1, h2, _⟩ := e.generate_ok (hi.wf hf) (hi.acyclic hf)
  have := hi.bbn_ok
  rw [hi.fns_eq, h1] at this
  cases this
  exact h2

omit [Field K] [LinearOrder K] [IsStrictOrderedRing K] in
theorem setCpd_vars (cpds : List (V × Cpd V S K)) (v : V) (c : Cpd V S K) :
    (setCpd cpds v c).map Prod.fst = cpds.map Prod.fst := by
  unfold setCpd
  rw [List.map_map]
  apply List.map_congr_left
  intro q _
  simp only [Function.comp_def]
  split
  · rename_i h; exact h.symm
  · rfl

omit [Field K] [LinearOrder K] [IsStrictOrderedRing K] in
theorem mem_setCpd {cpds : List (V × Cpd V S K)} {v : V} {c : Cpd V S K} {q : V × Cpd V S K}
    (h : q ∈ setCpd cpds v c) : (q ∈ cpds ∧ q.1 ≠ v) ∨ q = (v, c) := by
  obtain ⟨q', hq', he⟩ := List.mem_map.1 h
  split at he
  · exact Or.inr he.symm
  · rename_i hne
    subst he
    exact Or.inl ⟨hq', hne⟩

/-- Assigning a legal CPD and regenerating succeeds and keeps the invariant. -/
theorem Engine.Inv.assign (hi : e.Inv bn) (hf : Fitted bn) {v : V} {c : Cpd V S K}
    (hc : (v, c) ∈ e.orig ∨ ∃ c₀, (v, c₀) ∈ e.orig ∧ ∃ d : Dist S K,
      d.IsDist c₀.states ∧ c = interventionCpd V d) :
    ∃ e', ({ e with cpds := setCpd e.cpds v c } : Engine V S K).generate = (e', .ok ()) ∧
      e'.Inv bn ∧ e'.cpds = setCpd e.cpds v c := by
  -- the invariant up to the generated network
  let e₁ : Engine V S K := { e with cpds := setCpd e.cpds v c }
  have hpre : ∀ nodes, getOriginalFactors ((createFns e₁.cpds).map Prod.snd) = .ok nodes →
      ({ e₁ with fns := createFns e₁.cpds, bbn := nodes } : Engine V S K).Inv bn := by
    intro nodes hn
    refine ⟨hi.dom_eq, hi.orig_eq, ?_, ?_, rfl, hn⟩
    · exact (setCpd_vars _ _ _).trans hi.vars
    · intro q hq
      rcases mem_setCpd hq with ⟨h, _⟩ | rfl
      · exact hi.each q h
      · exact hc
  -- well-formedness of the new network, via an invariant with a dummy network
  have hw : NodesWF (netNodes e₁.cpds) ∧ Graph.Acyclic (arrows (netNodes e₁.cpds)) := by
    have hnode : ∀ n ∈ netNodes e₁.cpds, n ∈ netNodes (cpdsOf bn) ∨
        (n.args = [n.var] ∧ n.var ∈ (netNodes (cpdsOf bn)).map Node.var) := by
      intro n hn
      obtain ⟨q, hq, rfl⟩ := List.mem_map.1 hn
      have hq' : q ∈ e.orig ∨ ∃ c, (q.1, c) ∈ e.orig ∧ ∃ d : Dist S K,
          d.IsDist c.states ∧ q.2 = interventionCpd V d := by
        rcases mem_setCpd hq with ⟨h, _⟩ | rfl
        · exact hi.each q h
        · exact hc
      rw [hi.orig_eq] at hq'
      rcases hq' with h | ⟨c', hc', d, _, he⟩
      · exact Or.inl (List.mem_map_of_mem (f := fun q : V × Cpd V S K =>
          (⟨cpdFactor q, q.1⟩ : Node V S K)) h)
      · refine Or.inr ⟨?_, ?_⟩
        · simp [cpdFactor, he, interventionCpd]
        · rw [netNodes_vars]
          have := List.mem_map_of_mem (f := Prod.fst) hc'
          exact this
    have hvars : (netNodes e₁.cpds).map Node.var = (netNodes (cpdsOf bn)).map Node.var := by
      rw [netNodes_vars, netNodes_vars, cpdsOf_vars, ← hi.vars]
      exact setCpd_vars _ _ _
    refine ⟨⟨?_, ?_, ?_, ?_⟩, acyclic_mono ?_ hf.acyclic⟩
    · rw [hvars]; exact hf.wf.nodup
    · intro n hn
      obtain ⟨q, _, rfl⟩ := List.mem_map.1 hn
      simp [cpdFactor]
    · intro n hn
      rcases hnode n hn with h | ⟨h, _⟩
      · exact hf.wf.args_nodup n h
      · rw [h]; simp
    · intro n hn a ha
      rw [hvars]
      rcases hnode n hn with h | ⟨h, h'⟩
      · exact hf.wf.args_sub n h a ha
      · rw [h, List.mem_singleton] at ha
        rw [ha]; exact h'
    · rintro ⟨u, w⟩ h
      obtain ⟨n, hn, hv, hu, huw⟩ := link_arrows.1 h
      rcases hnode n hn with h | ⟨h, _⟩
      · exact link_arrows.2 ⟨n, h, hv, hu, huw⟩
      · rw [h, List.mem_singleton] at hu
        exact absurd (hu.trans hv) huw
  obtain ⟨nodes, h1, _, h3⟩ := e₁.generate_ok hw.1 hw.2
  exact ⟨_, h3, hpre nodes h1, rfl⟩

/-- A freshly built engine satisfies the invariant, and building it succeeds for every fitted
network with admissible names. -/
theorem Engine.create_ok (hf : Fitted bn) {okName : V → Bool}
    (hn : ∀ q ∈ bn, okName q.1 = true) :
    ∃ e : Engine V S K, Engine.create okName bn = .ok e ∧ e.Inv bn ∧ e.cpds = cpdsOf bn := by
  have hbn : bn ≠ [] := by
    rintro rfl
    exact hf.nonempty rfl
  obtain ⟨nodes, h1, h2, h3⟩ := Engine.generate_ok
    (⟨domOf bn, cpdsOf bn, cpdsOf bn, [], []⟩ : Engine V S K) hf.wf hf.acyclic
  refine ⟨⟨domOf bn, cpdsOf bn, cpdsOf bn, createFns (cpdsOf bn), nodes⟩, ?_, ?_, rfl⟩
  · unfold Engine.create
    have hany : (bn.any fun q => !okName q.1) = false := by
      rw [List.any_eq_false]
      intro q hq
      simp [hn q hq]
    have hemp : bn.isEmpty = false := by simpa using hbn
    simp only [hany, hemp, h3]
    rfl
  · exact ⟨rfl, rfl, cpdsOf_vars bn, fun q hq => Or.inl hq, rfl, h1⟩

omit [Field K] [LinearOrder K] [IsStrictOrderedRing K] in
theorem mem_of_lookup_orig {cpds : List (V × Cpd V S K)} {v : V} {c : Cpd V S K}
    (h : cpds.lookup v = some c) : (v, c) ∈ cpds := lookup_mem h

/-! ### What an intervention does -/

/-- The distribution an argument of `do_intervention` stands for. -/
def Engine.argDist (e : Engine V S K) (v : V) : DoArg S K → Option (Dist S K)
  | .dist d => some d
  | .label true s => (e.cpds.lookup v).map fun c => ⟨c.states, fun t => if t = s then 1 else 0⟩
  | .label false _ => none

/-- A node is a parent of another one. -/
def IsParent (cpds : List (V × Cpd V S K)) (v : V) : Prop := ∃ q ∈ cpds, v ∈ q.2.parents

omit [LinearOrder K] [IsStrictOrderedRing K] in
theorem Engine.Inv.any_iff [LinearOrder K] [IsStrictOrderedRing K] (hi : e.Inv bn) (v : V) :
    (e.fns.any fun f => decide (v ∈ f.2.args.tail)) = true ↔ IsParent e.cpds v := by
  rw [hi.fns_eq, List.any_eq_true]
  unfold createFns IsParent
  constructor
  · rintro ⟨f, hf, hv⟩
    obtain ⟨q, hq, rfl⟩ := List.mem_map.1 hf
    exact ⟨q, hq, of_decide_eq_true hv⟩
  · rintro ⟨q, hq, hv⟩
    exact ⟨_, List.mem_map_of_mem hq, decide_eq_true hv⟩

theorem Engine.Inv.isParent_mem (hi : e.Inv bn) (hf : Fitted bn) {v : V}
    (hp : IsParent e.cpds v) : v ∈ e.cpds.map Prod.fst := by
  obtain ⟨q, hq, hv⟩ := hp
  rw [← netNodes_vars]
  exact (hi.wf hf).args_sub ⟨cpdFactor q, q.1⟩ (List.mem_map_of_mem hq) v
    (List.mem_cons_of_mem _ hv)

/-- Complete description of `do_intervention` on a reachable engine. -/
theorem Engine.Inv.do_cases (hi : e.Inv bn) (hf : Fitted bn) (v : V) (a : DoArg S K) :
    (∃ err, e.doIntervention v a = (e, .error err) ∧
      (err = .valueError ∨ err = .attributeError ∧ IsParent e.cpds v ∧ ∃ s, a = .label false s) ∧
      ¬ (IsParent e.cpds v ∧ ∃ d c, e.argDist v a = some d ∧ e.orig.lookup v = some c ∧
        d.IsDist c.states)) ∨
    (∃ d c e', e.argDist v a = some d ∧ e.orig.lookup v = some c ∧ d.IsDist c.states ∧
      IsParent e.cpds v ∧ e.doIntervention v a = (e', .ok ()) ∧ e'.Inv bn ∧
      e'.cpds = setCpd e.cpds v (interventionCpd V d)) := by
  by_cases hp : IsParent e.cpds v
  swap
  · left
    refine ⟨.valueError, ?_, Or.inl rfl, fun h => hp h.1⟩
    have : (e.fns.any fun f => decide (v ∈ f.2.args.tail)) = false := by
      rw [← Bool.not_eq_true, hi.any_iff]; exact hp
    unfold Engine.doIntervention
    rw [if_pos (by simp [this])]
  have hany : ¬ ((!(e.fns.any fun f => decide (v ∈ f.2.args.tail))) = true) := by
    have := (hi.any_iff v).2 hp
    simp [this]
  have hvm : v ∈ e.cpds.map Prod.fst := hi.isParent_mem hf hp
  have hbody : ∀ d, e.argDist v a = some d → e.doIntervention v a =
      (match e.do_ v d with
      | (e, .error err) => (e, .error err)
      | (e, .ok ()) => e.generate) := by
    intro d hd
    unfold Engine.doIntervention
    rw [if_neg hany]
    cases a with
    | dist d' =>
      simp only [Engine.argDist, Option.some.injEq] at hd
      subst hd; rfl
    | label b s =>
      cases b with
      | false => simp [Engine.argDist] at hd
      | true =>
        simp only [Engine.argDist, Option.map_eq_some_iff] at hd
        obtain ⟨c, hc, rfl⟩ := hd
        simp only [hc]
        rfl
  cases hd : e.argDist v a with
  | none =>
    left
    cases a with
    | dist d' => simp [Engine.argDist] at hd
    | label b s =>
      cases b with
      | false =>
        refine ⟨.attributeError, ?_, Or.inr ⟨rfl, hp, s, rfl⟩, ?_⟩
        · unfold Engine.doIntervention
          rw [if_neg hany]
        · rintro ⟨_, d, c, h, _⟩; simp at h
      | true =>
        simp only [Engine.argDist, Option.map_eq_none_iff] at hd
        obtain ⟨b, hb⟩ := (lookup_isSome_iff e.cpds v).2 hvm
        rw [hd] at hb; cases hb
  | some d =>
    have hb := hbody d hd
    by_cases h1 : ∑ s ∈ d.keys, d.val s ≠ 1
    · left
      refine ⟨.valueError, ?_, Or.inl rfl, ?_⟩
      · rw [hb]; unfold Engine.do_; rw [if_pos h1]
      · rintro ⟨_, d', c, h, _, h'⟩
        cases h
        exact h1 h'.sum
    · by_cases h2 : (∃ s ∈ d.keys, 1 < d.val s) ∨ ∃ s ∈ d.keys, d.val s < 0
      · left
        refine ⟨.valueError, ?_, Or.inl rfl, ?_⟩
        · rw [hb]; unfold Engine.do_; rw [if_neg h1, if_pos h2]
        · rintro ⟨_, d', c, h, _, h'⟩
          cases h
          rcases h2 with ⟨s, hs, h⟩ | ⟨s, hs, h⟩
          · have := Finset.single_le_sum (f := d.val) (fun t ht => h'.nonneg t ht) hs
            rw [h'.sum] at this
            exact absurd h (not_lt.2 this)
          · exact absurd (h'.nonneg s hs) (not_le.2 h)
      · cases hc : e.orig.lookup v with
        | none =>
          rw [hi.vars, ← cpdsOf_vars, ← hi.orig_eq, ← lookup_isSome_iff] at hvm
          obtain ⟨b, hb⟩ := hvm
          rw [hc] at hb; cases hb
        | some c =>
          by_cases h3 : d.keys ≠ c.states
          · left
            refine ⟨.valueError, ?_, Or.inl rfl, ?_⟩
            · rw [hb]; unfold Engine.do_; rw [if_neg h1, if_neg h2]
              simp only [hc, if_pos h3]
            · rintro ⟨_, d', c', h, h', h''⟩
              cases h; cases h'
              exact h3 h''.keys
          · right
            have hdist : d.IsDist c.states := by
              refine ⟨not_not.1 h3, not_not.1 h1, ?_⟩
              push Not at h2
              exact h2.2
            obtain ⟨e', he, hinv, hcp⟩ := hi.assign hf
              (v := v) (c := interventionCpd V d)
              (Or.inr ⟨c, lookup_mem hc, d, hdist, rfl⟩)
            refine ⟨d, c, e', rfl, rfl, hdist, hp, ?_, hinv, hcp⟩
            rw [hb]; unfold Engine.do_; rw [if_neg h1, if_neg h2]
            simp only [hc, if_neg h3, he]

/-- Complete description of `reset_do` on a reachable engine. -/
theorem Engine.Inv.reset_cases (hi : e.Inv bn) (hf : Fitted bn) (v : V) :
    (v ∉ bn.map Prod.fst ∧ e.resetDo v = (e, .error .keyError)) ∨
    (v ∈ bn.map Prod.fst ∧ ∃ c e', e.orig.lookup v = some c ∧ e.resetDo v = (e', .ok ()) ∧
      e'.Inv bn ∧ e'.cpds = setCpd e.cpds v c) := by
  cases hc : e.orig.lookup v with
  | none =>
    left
    refine ⟨?_, by simp only [Engine.resetDo, hc]⟩
    rw [← cpdsOf_vars, ← hi.orig_eq, ← lookup_isSome_iff]
    rintro ⟨b, hb⟩
    rw [hc] at hb; cases hb
  | some c =>
    right
    refine ⟨?_, ?_⟩
    · rw [← cpdsOf_vars, ← hi.orig_eq, ← lookup_isSome_iff]
      exact ⟨c, hc⟩
    · obtain ⟨e', he, hinv, hcp⟩ := hi.assign hf (v := v) (c := c) (Or.inl (lookup_mem hc))
      exact ⟨c, e', rfl, by simp only [Engine.resetDo, hc, he], hinv, hcp⟩

theorem Engine.Inv.step (hi : e.Inv bn) (hf : Fitted bn) (nd : Nondet V) (op : Op V S K) :
    (e.step nd op).Inv bn := by
  cases op with
  | doIt v a =>
    rcases hi.do_cases hf v a with ⟨err, h, _, _⟩ | ⟨d, c, e', _, _, _, _, h, hinv, _⟩
    · simp only [Engine.step, h]; exact hi
    · simp only [Engine.step, h]; exact hinv
  | reset v =>
    rcases hi.reset_cases hf v with ⟨_, h⟩ | ⟨_, c, e', _, h, hinv, _⟩
    · simp only [Engine.step, h]; exact hi
    · simp only [Engine.step, h]; exact hinv
  | query ev => exact hi

theorem Engine.Inv.run (hi : e.Inv bn) (hf : Fitted bn) (nd : Nondet V) (ops : List (Op V S K)) :
    (e.run nd ops).Inv bn := by
  induction ops generalizing e with
  | nil => exact hi
  | cons op ops ih => exact ih (hi.step hf nd op)

end

end

end Verif.BBN
