import Verif.BBN.EngineFloat

/-!
# Invariant of the inference engine on floats
-/

namespace Verif.BBN
open Function

section
variable {V S : Type} [LinearOrder V] [DecidableEq S] {rd : ℚ → ℚ}

/-- A fitted network whose tables hold floats.  The columns of the tables need not add up to one. -/
structure FlFitted (bn : List (V × Frame V S (Fl rd))) : Prop where
  wf : NodesWF (netNodes (cpdsOf bn))
  nonempty : bn ≠ []
  acyclic : Graph.Acyclic (arrows (netNodes (cpdsOf bn)))
  connected : Connected (netNodes (cpdsOf bn))
  states_nodup : ∀ v ∈ bn.map Prod.fst, (domOf bn v).Nodup
  nonneg : NonNeg (domOf bn) ((netNodes (cpdsOf bn)).map Node.exact)

/-- `e` is what some history of operations leaves of an engine built from the network `bn`. -/
def FlReach (nd : Nondet V) (bn : List (V × Frame V S (Fl rd))) (e : Engine V S (Fl rd)) : Prop :=
  ∃ okName e₀ ops, Engine.create okName bn = .ok e₀ ∧ e = e₀.runFl nd ops

/-- A table of the current network: an original one, or one installed by an intervention. -/
def FlEntry (orig : List (V × Cpd V S (Fl rd))) (q : V × Cpd V S (Fl rd)) : Prop :=
  q ∈ orig ∨ ∃ c, (q.1, c) ∈ orig ∧ ∃ d : Dist S (Fl rd), d.keys = c.states ∧ (∀ s ∈ d.keys, 0 ≤ (d.val s).val) ∧
    q.2 = interventionCpd V d

/-- What holds of every engine built from `bn`. -/
structure Engine.FlInv (bn : List (V × Frame V S (Fl rd))) (e : Engine V S (Fl rd)) : Prop where
  dom_eq : e.dom = domOf bn
  orig_eq : e.orig = cpdsOf bn
  vars : e.cpds.map Prod.fst = bn.map Prod.fst
  each : ∀ q ∈ e.cpds, FlEntry e.orig q
  fns_eq : e.fns = createFns e.cpds
  bbn_ok : getOriginalFactors (e.fns.map Prod.snd) = .ok e.bbn

variable {bn : List (V × Frame V S (Fl rd))} {e : Engine V S (Fl rd)}

theorem FlFitted.nodup (h : FlFitted bn) : (bn.map Prod.fst).Nodup := by
  have := h.wf.nodup
  rwa [netNodes_vars, cpdsOf_vars] at this

/-- A node of a network made of such tables. -/
theorem fl_node {cpds : List (V × Cpd V S (Fl rd))} (he : ∀ q ∈ cpds, FlEntry (cpdsOf bn) q) {n : Node V S (Fl rd)}
    (hn : n ∈ netNodes cpds) : n ∈ netNodes (cpdsOf bn) ∨
      (n.args = [n.var] ∧ n.var ∈ (netNodes (cpdsOf bn)).map Node.var ∧ ∀ x, 0 ≤ (n.fn x).val) := by
  obtain ⟨q, hq, rfl⟩ := List.mem_map.1 hn
  rcases he q hq with h | ⟨c, hc, d, hk, hd, hq2⟩
  · exact Or.inl (List.mem_map_of_mem (f := fun q : V × Cpd V S (Fl rd) => (⟨cpdFactor q, q.1⟩ : Node V S (Fl rd))) h)
  · refine Or.inr ⟨by simp [cpdFactor, hq2, interventionCpd], ?_, ?_⟩
    · rw [netNodes_vars]
      have := List.mem_map_of_mem (f := Prod.fst) hc
      exact this
    · intro x
      dsimp only [cpdFactor]
      rw [hq2]
      cases x with
      | nil => exact le_rfl
      | cons s ps =>
        dsimp only [interventionCpd]
        split
        · exact hd s (by assumption)
        · exact le_rfl

theorem fl_wf (hf : FlFitted bn) {cpds : List (V × Cpd V S (Fl rd))} (hv : cpds.map Prod.fst = bn.map Prod.fst)
    (he : ∀ q ∈ cpds, FlEntry (cpdsOf bn) q) :
    NodesWF (netNodes cpds) ∧ Graph.Acyclic (arrows (netNodes cpds)) := by
  have hvars : (netNodes cpds).map Node.var = (netNodes (cpdsOf bn)).map Node.var := by
    rw [netNodes_vars, netNodes_vars, cpdsOf_vars, hv]
  refine ⟨⟨?_, ?_, ?_, ?_⟩, acyclic_mono ?_ hf.acyclic⟩
  · rw [hvars]; exact hf.wf.nodup
  · intro n hn
    obtain ⟨q, _, rfl⟩ := List.mem_map.1 hn
    simp [cpdFactor]
  · intro n hn
    rcases fl_node he hn with h | ⟨h, _⟩
    · exact hf.wf.args_nodup n h
    · rw [h]; simp
  · intro n hn a ha
    rw [hvars]
    rcases fl_node he hn with h | ⟨h, h', _⟩
    · exact hf.wf.args_sub n h a ha
    · rw [h, List.mem_singleton] at ha
      rw [ha]; exact h'
  · rintro ⟨u, w⟩ h
    obtain ⟨n, hn, hv, hu, huw⟩ := link_arrows.1 h
    rcases fl_node he hn with h | ⟨h, _⟩
    · exact link_arrows.2 ⟨n, h, hv, hu, huw⟩
    · rw [h, List.mem_singleton] at hu
      exact absurd (hu.trans hv) huw

theorem Engine.FlInv.wf (hi : e.FlInv bn) (hf : FlFitted bn) :
    NodesWF (netNodes e.cpds) ∧ Graph.Acyclic (arrows (netNodes e.cpds)) :=
  fl_wf hf hi.vars (hi.orig_eq ▸ hi.each)

theorem Engine.FlInv.nonneg (hi : e.FlInv bn) (hf : FlFitted bn) : NonNeg e.dom ((netNodes e.cpds).map Node.exact) := by
  intro m hm x hx
  obtain ⟨n, hn, rfl⟩ := List.mem_map.1 hm
  rw [hi.dom_eq] at hx
  rcases fl_node (bn := bn) (hi.orig_eq ▸ hi.each) hn with h | ⟨_, _, h⟩
  · exact hf.nonneg _ (List.mem_map_of_mem h) x hx
  · exact h _

theorem Engine.FlInv.bbn_perm (hi : e.FlInv bn) (hf : FlFitted bn) : e.bbn.Perm (netNodes e.cpds) := by
  obtain ⟨nodes, h1, h2, _⟩ := e.generate_ok (hi.wf hf).1 (hi.wf hf).2
  have := hi.bbn_ok
  rw [hi.fns_eq, h1] at this
  cases this
  exact h2

/-- Assigning a legal table and regenerating succeeds and keeps the invariant. -/
theorem Engine.FlInv.assign (hi : e.FlInv bn) (hf : FlFitted bn) {v : V} {c : Cpd V S (Fl rd)}
    (hc : FlEntry e.orig (v, c)) :
    ∃ e', ({ e with cpds := setCpd e.cpds v c } : Engine V S (Fl rd)).generate = (e', .ok ()) ∧
      e'.FlInv bn ∧ e'.cpds = setCpd e.cpds v c := by
  let e₁ : Engine V S (Fl rd) := { e with cpds := setCpd e.cpds v c }
  have hv : e₁.cpds.map Prod.fst = bn.map Prod.fst := (setCpd_vars _ _ _).trans hi.vars
  have hen : ∀ q ∈ e₁.cpds, FlEntry e.orig q := by
    intro q hq
    rcases mem_setCpd hq with ⟨h, _⟩ | rfl
    · exact hi.each q h
    · exact hc
  have hw := fl_wf hf hv (hi.orig_eq ▸ hen)
  obtain ⟨nodes, h1, _, h3⟩ := e₁.generate_ok hw.1 hw.2
  exact ⟨_, h3, ⟨hi.dom_eq, hi.orig_eq, hv, hen, rfl, h1⟩, rfl⟩

theorem Engine.FlInv.created (hf : FlFitted bn) {okName : V → Bool} (h : Engine.create okName bn = .ok e) :
    e.FlInv bn ∧ e.cpds = cpdsOf bn := by
  obtain ⟨nodes, h1, h2, h3⟩ := Engine.generate_ok (⟨domOf bn, cpdsOf bn, cpdsOf bn, [], []⟩ : Engine V S (Fl rd)) hf.wf hf.acyclic
  unfold Engine.create at h
  split_ifs at h
  rw [h3] at h
  cases h
  exact ⟨⟨rfl, rfl, cpdsOf_vars bn, fun q hq => Or.inl hq, rfl, h1⟩, rfl⟩

/-- Building an engine succeeds if the names are admissible. -/
theorem FlFitted.create (hf : FlFitted bn) {okName : V → Bool} (hn : ∀ q ∈ bn, okName q.1 = true) :
    ∃ e : Engine V S (Fl rd), Engine.create okName bn = .ok e := by
  obtain ⟨nodes, h1, h2, h3⟩ := Engine.generate_ok (⟨domOf bn, cpdsOf bn, cpdsOf bn, [], []⟩ : Engine V S (Fl rd)) hf.wf hf.acyclic
  refine ⟨⟨domOf bn, cpdsOf bn, cpdsOf bn, createFns (cpdsOf bn), nodes⟩, ?_⟩
  unfold Engine.create
  have hany : (bn.any fun q => !okName q.1) = false := by
    rw [List.any_eq_false]
    intro q hq
    simp [hn q hq]
  have hemp : bn.isEmpty = false := by simpa using hf.nonempty
  simp only [hany, hemp, h3]
  rfl

theorem Engine.FlInv.any_iff (hi : e.FlInv bn) (v : V) :
    (e.fns.any fun f => decide (v ∈ f.2.args.tail)) = true ↔ IsParent e.cpds v := by
  rw [hi.fns_eq, List.any_eq_true]
  unfold createFns IsParent
  constructor
  · rintro ⟨f, hf, hv⟩
    obtain ⟨q, hq, rfl⟩ := List.mem_map.1 hf
    exact ⟨q, hq, of_decide_eq_true hv⟩
  · rintro ⟨q, hq, hv⟩
    exact ⟨_, List.mem_map_of_mem hq, decide_eq_true hv⟩

theorem Engine.FlInv.isParent_mem (hi : e.FlInv bn) (hf : FlFitted bn) {v : V} (hp : IsParent e.cpds v) :
    v ∈ bn.map Prod.fst := by
  obtain ⟨q, hq, hv⟩ := hp
  rw [← hi.vars, ← netNodes_vars]
  exact (hi.wf hf).1.args_sub ⟨cpdFactor q, q.1⟩ (List.mem_map_of_mem hq) v (List.mem_cons_of_mem _ hv)

/-- The states of a current table are the domain of its variable. -/
theorem Engine.FlInv.states (hi : e.FlInv bn) (hf : FlFitted bn) {v : V} {c : Cpd V S (Fl rd)} (h : (v, c) ∈ e.cpds) :
    c.states = (domOf bn v).toFinset := by
  rcases hi.each _ h with h | ⟨c₀, h, d, hk, _, he⟩
  · exact orig_states hf.nodup (hi.orig_eq ▸ h)
  · dsimp only at he h
    rw [he]
    exact hk.trans (orig_states hf.nodup (hi.orig_eq ▸ h))

theorem Engine.FlInv.orig_lookup (hi : e.FlInv bn) (hf : FlFitted bn) {v : V} (hv : v ∈ bn.map Prod.fst) :
    ∃ c, e.orig.lookup v = some c ∧ (v, c) ∈ e.orig ∧ c.states = (domOf bn v).toFinset := by
  rw [← cpdsOf_vars, ← hi.orig_eq, ← lookup_isSome_iff] at hv
  obtain ⟨c, hc⟩ := hv
  exact ⟨c, hc, lookup_mem hc, orig_states hf.nodup (hi.orig_eq ▸ lookup_mem hc)⟩

/-- The dict an argument of `do_intervention` on `v` stands for; the empty list for other objects. -/
def FlArg.entries (dom : List S) : FlArg S rd → List (S × Fl rd)
  | .dict d => d
  | .label true s => dom.map fun t => (t, if t = s then 1 else 0)
  | .label false _ => []

/-- The checks on the dict. -/
structure FlOk (dom : List S) (d : List (S × Fl rd)) : Prop where
  sum : pySum (d.map Prod.snd) = 1
  le_one : ∀ q ∈ d, q.2.val ≤ 1
  nonneg : ∀ q ∈ d, 0 ≤ q.2.val
  states : (d.map Prod.fst).toFinset = dom.toFinset

theorem distOf_nonneg {d : List (S × Fl rd)} (h : ∀ q ∈ d, 0 ≤ q.2.val) (s : S) : 0 ≤ ((distOf d).val s).val := by
  unfold distOf
  dsimp only
  cases hl : d.lookup s with
  | none => exact le_rfl
  | some p => exact h _ (lookup_mem hl)

/-- Complete description of `do_intervention` on a reachable engine. -/
theorem Engine.FlInv.do_cases (hi : e.FlInv bn) (hf : FlFitted bn) (v : V) (a : FlArg S rd) :
    (∃ err, e.doFl v a = (e, .error err) ∧ ¬ (IsParent e.cpds v ∧ FlOk (domOf bn v) (a.entries (domOf bn v)))) ∨
    (∃ e', IsParent e.cpds v ∧ FlOk (domOf bn v) (a.entries (domOf bn v)) ∧ e.doFl v a = (e', .ok ()) ∧ e'.FlInv bn ∧
      e'.cpds = setCpd e.cpds v (interventionCpd V (distOf (a.entries (domOf bn v))))) := by
  by_cases hp : IsParent e.cpds v
  swap
  · left
    refine ⟨.valueError, ?_, fun h => hp h.1⟩
    have : (e.fns.any fun f => decide (v ∈ f.2.args.tail)) = false := by
      rw [← Bool.not_eq_true, hi.any_iff]; exact hp
    unfold Engine.doFl
    rw [if_pos (by simp [this])]
  have hany : ¬ ((!(e.fns.any fun f => decide (v ∈ f.2.args.tail))) = true) := by
    have := (hi.any_iff v).2 hp
    simp [this]
  have hvm : v ∈ bn.map Prod.fst := hi.isParent_mem hf hp
  have hempty : ¬ FlOk (rd := rd) (domOf bn v) [] := by
    intro h
    have := h.sum
    exact absurd (congrArg Fl.val this) (by simp [pySum, Fl.zero_val, Fl.one_val])
  by_cases hlab : ∃ s, a = .label false s
  · obtain ⟨s, rfl⟩ := hlab
    left
    refine ⟨.attributeError, ?_, fun h => hempty h.2⟩
    unfold Engine.doFl
    rw [if_neg hany]
  have hbody : e.doFl v a =
      (match e.doFl_ v (a.entries (domOf bn v)) with
      | (e, .error err) => (e, .error err)
      | (e, .ok ()) => e.generate) := by
    unfold Engine.doFl
    rw [if_neg hany]
    cases a with
    | dict d => rfl
    | label b s =>
      cases b with
      | false => exact absurd ⟨s, rfl⟩ hlab
      | true =>
        have hvc : v ∈ e.cpds.map Prod.fst := by rw [hi.vars]; exact hvm
        obtain ⟨c, hc⟩ := (lookup_isSome_iff e.cpds v).2 hvc
        simp only [hc]
        have h1 : ((e.dom v).filter (· ∈ c.states)) = domOf bn v := by
          rw [hi.dom_eq, List.filter_eq_self]
          intro t ht
          rw [hi.states hf (lookup_mem hc)]
          simpa using ht
        rw [h1]
        rfl
  set d := a.entries (domOf bn v) with hd
  obtain ⟨c, hc, hcm, hcs⟩ := hi.orig_lookup hf hvm
  by_cases h1 : pySum (d.map Prod.snd) ≠ 1
  · left
    refine ⟨.valueError, ?_, fun h => h1 h.2.sum⟩
    rw [hbody]; unfold Engine.doFl_; rw [if_pos h1]
  by_cases h2 : (∃ q ∈ d, 1 < q.2.val) ∨ ∃ q ∈ d, q.2.val < 0
  · left
    refine ⟨.valueError, ?_, ?_⟩
    · rw [hbody]; unfold Engine.doFl_; rw [if_neg h1, if_pos h2]
    · rintro ⟨_, h⟩
      rcases h2 with ⟨q, hq, h'⟩ | ⟨q, hq, h'⟩
      · exact absurd (h.le_one q hq) (not_le.2 h')
      · exact absurd (h.nonneg q hq) (not_le.2 h')
  by_cases h3 : (d.map Prod.fst).toFinset ≠ c.states
  · left
    refine ⟨.valueError, ?_, fun h => h3 (h.2.states.trans hcs.symm)⟩
    rw [hbody]; unfold Engine.doFl_; rw [if_neg h1, if_neg h2]
    simp only [hc, if_pos h3]
  · right
    have hok : FlOk (domOf bn v) d := by
      push Not at h1 h2 h3
      exact ⟨h1, h2.1, h2.2, h3.trans hcs⟩
    obtain ⟨e', he, hinv, hcp⟩ := hi.assign hf (v := v) (c := interventionCpd V (distOf d))
      (Or.inr ⟨c, hcm, distOf d, not_not.1 h3, fun s _ => distOf_nonneg hok.nonneg s, rfl⟩)
    refine ⟨e', hp, hok, ?_, hinv, hcp⟩
    rw [hbody]; unfold Engine.doFl_; rw [if_neg h1, if_neg h2]
    simp only [hc, if_neg h3, he]

theorem Engine.FlInv.reset (hi : e.FlInv bn) (hf : FlFitted bn) (v : V) : (e.resetDo v).1.FlInv bn := by
  unfold Engine.resetDo
  cases hc : e.orig.lookup v with
  | none => exact hi
  | some c =>
    obtain ⟨e', he, hinv, _⟩ := hi.assign hf (v := v) (c := c) (Or.inl (lookup_mem hc))
    simp only [he]
    exact hinv

theorem Engine.FlInv.step (hi : e.FlInv bn) (hf : FlFitted bn) (nd : Nondet V) (op : FlOp V S rd) : (e.stepFl nd op).FlInv bn := by
  cases op with
  | doIt v a =>
    rcases hi.do_cases hf v a with ⟨err, h, _⟩ | ⟨e', _, _, h, hinv, _⟩
    · simp only [Engine.stepFl, h]; exact hi
    · simp only [Engine.stepFl, h]; exact hinv
  | reset v => exact hi.reset hf v
  | query ev => exact hi

theorem FlReach.inv {nd : Nondet V} (h : FlReach nd bn e) (hf : FlFitted bn) : e.FlInv bn := by
  obtain ⟨okName, e₀, ops, h1, rfl⟩ := h
  have h0 := (Engine.FlInv.created hf h1).1
  clear h1
  unfold Engine.runFl
  induction ops generalizing e₀ with
  | nil => exact h0
  | cons op ops ih => exact ih _ (h0.step hf nd op)

end

end Verif.BBN
