import Verif.BBN.Backdoor

/-!
# C100, C101: interventions and observations; interventions with a distribution
-/

namespace Verif.BBN
open Function Graph

section
variable {V S K : Type} [LinearOrder V] [DecidableEq S] [Field K] [LinearOrder K] [IsStrictOrderedRing K] {dom : V → List S}

/-! ### Specification -/

/-- The result of a query gives the state `t` of `y` the probability `p`. -/
def Gives (out : List (V × List (S × K))) (y : V) (t : S) (p : K) : Prop :=
  ∃ r, out.lookup y = some r ∧ r.lookup t = some p

/-- All dictionaries giving a state to each of the variables `zs`. -/
def assignments (dom : V → List S) : List V → List (List (V × S))
  | [] => [[]]
  | z :: zs => (dom z).flatMap fun s => (assignments dom zs).map fun ev => (z, s) :: ev

/-! ### Lemmas -/

omit [DecidableEq S] [Field K] [LinearOrder K] [IsStrictOrderedRing K] in
theorem mem_assignments {zs : List V} {ev : List (V × S)} (h : ev ∈ assignments dom zs) :
    ev.map Prod.fst = zs ∧ ∀ p ∈ ev, p.2 ∈ dom p.1 := by
  induction zs generalizing ev with
  | nil =>
    rw [assignments, List.mem_singleton] at h
    subst h
    simp
  | cons z zs ih =>
    rw [assignments, List.mem_flatMap] at h
    obtain ⟨s, hs, h⟩ := h
    obtain ⟨ev, hev, rfl⟩ := List.mem_map.1 h
    obtain ⟨h1, h2⟩ := ih hev
    refine ⟨by rw [List.map_cons, h1], ?_⟩
    intro p hp
    rcases List.mem_cons.1 hp with rfl | hp
    · exact hs
    · exact h2 p hp

omit [DecidableEq S] in
theorem assignments_congr {dom dom' : V → List S} {zs : List V} (h : ∀ z ∈ zs, dom' z = dom z) : assignments dom' zs = assignments dom zs := by
  induction zs with
  | nil => rfl
  | cons z zs ih =>
    rw [assignments, assignments, h z List.mem_cons_self, ih fun z hz => h z (List.mem_cons_of_mem _ hz)]

omit [IsStrictOrderedRing K] in
theorem Reports.gives {vs : List V} {P : V → S → K} {out : List (V × List (S × K))} (h : Reports dom vs P out) {y : V} (hy : y ∈ vs) {t : S}
    (ht : t ∈ dom y) : Gives out y t (P y t) := by
  obtain ⟨r, hr⟩ := (lookup_isSome_iff out y).2 (by rw [h.vars]; exact hy)
  refine ⟨r, hr, ?_⟩
  obtain ⟨p, hp⟩ := (lookup_isSome_iff r t).2 ((h.states _ (lookup_mem hr)).mem_iff.2 ht)
  rw [hp]
  exact congrArg some (h.probs _ (lookup_mem hr) _ (lookup_mem hp))

theorem massOf_assignments (hd : ∀ u, (dom u).Nodup) {nodes : List (Node V S K)} (hw : NodesWF nodes) (zs : List V)
    (hz : ∀ z ∈ zs, z ∈ nodes.map Node.var) (x₀ : V → S) (A : (V → S) → Prop) [DecidablePred A] :
    ((assignments dom zs).map fun ev => massOf dom nodes x₀ (fun x => Agrees ev x ∧ A x)).sum = massOf dom nodes x₀ A := by
  induction zs generalizing A with
  | nil =>
    rw [assignments, List.map_singleton, List.sum_singleton]
    exact massOf_congr fun x => by simp [Agrees]
  | cons z zs ih =>
    rw [assignments, ← massOf_split hd hw A (hz z List.mem_cons_self) x₀]
    have hsum : ∀ l : List S, ((l.flatMap fun s => (assignments dom zs).map fun ev => (z, s) :: ev).map
        fun ev => massOf dom nodes x₀ (fun x => Agrees ev x ∧ A x)).sum =
        (l.map fun s => ((assignments dom zs).map fun ev => massOf dom nodes x₀ (fun x => Agrees ((z, s) :: ev) x ∧ A x)).sum).sum := by
      intro l
      induction l with
      | nil => rfl
      | cons s l ihl =>
        rw [List.flatMap_cons, List.map_append, List.sum_append, ihl, List.map_cons, List.sum_cons, List.map_map]
        rfl
    rw [hsum]
    congr 1
    apply List.map_congr_left
    intro s _
    rw [← ih (fun z hz' => hz z (List.mem_cons_of_mem _ hz')) (fun x => A x ∧ x z = s)]
    congr 1
    apply List.map_congr_left
    intro ev _
    exact massOf_congr fun x => by simp [Agrees]; tauto

omit [DecidableEq S] in
theorem see_nonneg {nodes : List (Node V S K)} (h : NonNeg dom nodes) {v : V} {s : S} (hs : s ∈ dom v) : NonNeg dom (seeNodes nodes v s) := by
  intro n hn x hx
  obtain ⟨m, hm, rfl⟩ := List.mem_map.1 hn
  by_cases hv : m.var = v
  · rw [seeNode_fn_self hv]
    exact h m hm x fun a ha => hx a (mem_seeNode_args.2 ⟨ha, Or.inl hv⟩)
  · rw [seeNode_fn hv]
    apply h m hm
    intro a ha
    by_cases h' : a = v
    · rw [h', update_self]
      exact hs
    · rw [update_of_ne h']
      exact hx a (mem_seeNode_args.2 ⟨ha, Or.inr h'⟩)

/-- Setting `v` to `s` makes an event at least as probable as the event together with `v = s` was. -/
theorem massWith_ge {nodes : List (Node V S K)} (hN : IsNetwork dom nodes) {x₀ : V → S} (hx₀ : ∀ u ∈ nodes.map Node.var, x₀ u ∈ dom u)
    {v : V} (hv : v ∈ nodes.map Node.var) {s : S} (hs : s ∈ dom v) (B : (V → S) → Prop) [DecidablePred B]
    (hB : ∀ x t, B (update x v t) ↔ B x) :
    massOf dom nodes x₀ (fun x => B x ∧ x v = s) ≤
      massWith dom (nodes.map Node.var) (truncated nodes v fun t => if t = s then 1 else 0) x₀ B := by
  obtain ⟨dom', hcongr, hd, hx⟩ := exists_total_dom hN.states_nodup hx₀
  have hN' := hN.congr hcongr
  have hs' : s ∈ dom' v := by rw [hcongr v hv]; exact hs
  have hwc : massWith dom (nodes.map Node.var) (truncated nodes v fun t => if t = s then (1 : K) else 0) x₀ B =
      massWith dom' (nodes.map Node.var) (truncated nodes v fun t => if t = s then 1 else 0) x₀ B := by
    unfold massWith
    rw [worlds_congr x₀ hcongr]
  rw [hwc, ← massOf_dom_congr hcongr]
  obtain ⟨h1, h2⟩ := massOf_see hN'.wf hd hN'.normalised hx hv hs'
  rw [← h2, ← h1 B hB]
  exact massOf_mono (see_nonneg hN'.nonneg hs') hx fun x h => h.1

theorem agrees_update {l : List (V × S)} {v : V} (hl : v ∉ l.map Prod.fst) (x : V → S) (t : S) : Agrees l (update x v t) ↔ Agrees l x := by
  unfold Agrees
  refine forall₂_congr fun p hp => ?_
  rw [update_of_ne]
  rintro rfl
  exact hl (List.mem_map_of_mem hp)

/-- An intervention only removes arrows. -/
theorem connected_of_do {cpds : List (V × Cpd V S K)} {v : V} {d : Dist S K}
    (h : Connected (netNodes (setCpd cpds v (interventionCpd V d)))) : Connected (netNodes cpds) := by
  intro u hu w hw
  rw [netNodes_vars] at hu hw
  refine Graph.wconn_mono ?_ (h u (by rw [netNodes_vars, setCpd_vars]; exact hu) w (by rw [netNodes_vars, setCpd_vars]; exact hw))
  rintro ⟨a, b⟩ he
  obtain ⟨n, hn, hv, ha, hne⟩ := link_arrows.1 he
  obtain ⟨q, hq, rfl⟩ := List.mem_map.1 hn
  rcases mem_setCpd hq with ⟨hq, _⟩ | rfl
  · exact link_arrows.2 ⟨_, List.mem_map_of_mem (f := fun q : V × Cpd V S K => (⟨cpdFactor q, q.1⟩ : Node V S K)) hq, hv, ha, hne⟩
  · subst hv
    simp [cpdFactor, interventionCpd] at ha
    exact absurd ha hne

/-- What an accepted intervention with an `int` label leaves. -/
theorem do_label_cases {nd : Nondet V} {bn : List (V × Frame V S K)} (hf : Fitted bn) {e e' : Engine V S K} (he : Reach nd bn e) {v : V} {s : S}
    (hdo : e.doIntervention v (.label true s) = (e', .ok ())) :
    v ∈ bn.map Prod.fst ∧ s ∈ domOf bn v ∧ e'.cpds = setCpd e.cpds v (interventionCpd V ⟨(domOf bn v).toFinset, fun t => if t = s then 1 else 0⟩) ∧
      e.doIntervention v (.dist ⟨(domOf bn v).toFinset, fun t => if t = s then 1 else 0⟩) = (e', .ok ()) := by
  have hi := he.inv hf
  have hrej := (do_label_rejects_iff hf he v s).1
  have hno : ¬ ((¬ ∃ q ∈ e.cpds, v ∈ q.2.parents) ∨ s ∉ domOf bn v) := by
    intro h
    obtain ⟨err, h'⟩ := hrej.2 h
    rw [hdo] at h'
    cases h'
  push Not at hno
  have hv := hi.isParent_mem hf hno.1
  rw [hi.vars] at hv
  have heq := do_label_eq_point hf he hv s
  rw [heq] at hdo
  refine ⟨hv, hno.2, ?_, hdo⟩
  rcases hi.do_cases hf v (.dist ⟨(domOf bn v).toFinset, fun t => if t = s then 1 else 0⟩) with
    ⟨err, h, _, _⟩ | ⟨d', c, e₁, hd', hc, hd, _, h, hi', hcp⟩
  · rw [h] at hdo
    cases hdo
  · rw [h] at hdo
    cases hdo
    cases hd'
    exact hcp

/-! ### C100 -/

/-- **C100.** Let an intervention set `v` to the state `s` and leave the graph in one piece.  If in the graph before the intervention, without the arrows out of
`v`, the variables of the evidence `ev` d-separate `v` from `y`, and `ev` together with `v = s` had positive probability, then
the query with `ev` after the intervention and the query with `ev` and `v = s` before it both succeed and report the same dictionary for `y`:
acting is like observing. -/
theorem do_like_observing {nd : Nondet V} (hnd : nd.Legal) {bn : List (V × Frame V S K)} (hf : Fitted bn) {e e' : Engine V S K}
    (he : Reach nd bn e) {v : V} {s : S} (hdo : e.doIntervention v (.label true s) = (e', .ok ()))
    (hconn : Connected (netNodes e'.cpds)) {x₀ : V → S} (hx₀ : ∀ u ∈ bn.map Prod.fst, x₀ u ∈ domOf bn u)
    {ev : List (V × S)} (hk : (ev.map Prod.fst).Nodup) (hev : ∀ p ∈ ev, p.1 ∈ bn.map Prod.fst ∧ p.2 ∈ domOf bn p.1)
    (hvev : v ∉ ev.map Prod.fst) (hpos : 0 < massOf (domOf bn) (netNodes e.cpds) x₀ (Agrees (ev ++ [(v, s)])))
    {y : V} (hy : y ∈ bn.map Prod.fst) (hsep : DSeparated (cutOut (arrows (netNodes e.cpds)) v) (· ∈ ev.map Prod.fst) v y) :
    ∃ out out' r r', e.query nd (ev ++ [(v, s)]) = .ok out ∧ e'.query nd ev = .ok out' ∧
      out.lookup y = some r ∧ out'.lookup y = some r' ∧ r.Perm r' := by
  have hi := he.inv hf
  obtain ⟨hv, hs, hcp, hdo'⟩ := do_label_cases hf he hdo
  have hconn0 : Connected (netNodes e.cpds) := connected_of_do (hcp ▸ hconn)
  have hN := hi.network hf hconn0
  have hx : ∀ u ∈ (netNodes e.cpds).map Node.var, x₀ u ∈ e.dom u := by
    rw [netNodes_vars, hi.vars, hi.dom_eq]; exact hx₀
  have hgood1 : GoodEvidence e.dom (netNodes e.cpds) ev := by
    intro p hp
    rw [netNodes_vars, hi.vars, hi.dom_eq]
    exact hev p hp
  have hgood : GoodEvidence e.dom (netNodes e.cpds) (ev ++ [(v, s)]) := by
    intro p hp
    rcases List.mem_append.1 hp with hp | hp
    · exact hgood1 p hp
    · rw [List.mem_singleton.1 hp, netNodes_vars, hi.vars, hi.dom_eq]
      exact ⟨hv, hs⟩
  have hkk : ((ev ++ [(v, s)]).map Prod.fst).Nodup := by
    rw [List.map_append, List.nodup_append]
    refine ⟨hk, List.nodup_singleton _, ?_⟩
    intro a ha b hb
    rw [List.map_singleton, List.mem_singleton] at hb
    rintro rfl
    have hb : a = v := hb
    exact hvev (hb ▸ ha)
  rw [← hi.dom_eq] at hpos
  have hag : ∀ x : V → S, Agrees (ev ++ [(v, s)]) x ↔ Agrees ev x ∧ x v = s := by
    intro x
    simp only [Agrees, List.mem_append, List.mem_singleton]
    constructor
    · exact fun h => ⟨fun p hp => h p (Or.inl hp), h (v, s) (Or.inr rfl)⟩
    · rintro ⟨h1, h2⟩ p (hp | rfl)
      · exact h1 p hp
      · exact h2
  have hvn : v ∈ (netNodes e.cpds).map Node.var := by rw [netNodes_vars, hi.vars]; exact hv
  have hse : s ∈ e.dom v := by rw [hi.dom_eq]; exact hs
  have hposd := massWith_ge hN hx hvn hse (Agrees ev) (agrees_update hvev)
  have e0 := massOf_congr (dom := e.dom) (nodes := netNodes e.cpds) (x₀ := x₀) hag
  rw [← e0] at hposd
  have hposd := lt_of_lt_of_le hpos hposd
  rw [netNodes_vars, hi.vars, hi.dom_eq] at hposd
  obtain ⟨out, h1, h2⟩ := hi.query_reports hnd hf hconn0 (by rw [← netNodes_vars]; exact hx) hkk hgood hpos
  obtain ⟨out', h1', h2'⟩ := do_truncated_partial hnd hf he hdo' hconn hx₀ hk hev hposd
  rw [hi.vars, hi.dom_eq] at h2
  rw [hi.dom_eq] at hpos
  obtain ⟨r, r', hr, hr', hp⟩ := h2.same h2' (v := y) hy fun t => by
    have hid := massOf_act_observe (ev' := [(y, t)]) hN.wf hN.acyclic hN.states_nodup hN.normalised hx hk hgood1 hvn hvev hse (by
      intro w hw
      have : w = y := by simpa using hw
      rw [this]
      exact hsep)
    rw [netNodes_vars, hi.vars, hi.dom_eq] at hid
    rw [div_eq_div_iff (ne_of_gt hpos) (ne_of_gt hposd)]
    have e1 : massOf (domOf bn) (netNodes e.cpds) x₀ (fun x => Agrees (ev ++ [(v, s)]) x ∧ x y = t) =
        massOf (domOf bn) (netNodes e.cpds) x₀ (fun x => Agrees (ev ++ [(y, t)]) x ∧ x v = s) :=
      massOf_congr fun x => by
        simp only [Agrees, List.mem_append, List.mem_singleton]
        constructor
        · rintro ⟨h, h'⟩
          refine ⟨?_, h (v, s) (Or.inr rfl)⟩
          rintro p (hp | rfl)
          · exact h p (Or.inl hp)
          · exact h'
        · rintro ⟨h, h'⟩
          refine ⟨?_, h (y, t) (Or.inr rfl)⟩
          rintro p (hp | rfl)
          · exact h p (Or.inl hp)
          · exact h'
    have e2 : massOf (domOf bn) (netNodes e.cpds) x₀ (Agrees (ev ++ [(v, s)])) =
        massOf (domOf bn) (netNodes e.cpds) x₀ (fun x => Agrees ev x ∧ x v = s) := massOf_congr hag
    have e3 : massWith (domOf bn) (bn.map Prod.fst) (truncated (netNodes e.cpds) v fun t => if t = s then 1 else 0) x₀
          (fun x => Agrees ev x ∧ x y = t) =
        massWith (domOf bn) (bn.map Prod.fst) (truncated (netNodes e.cpds) v fun t => if t = s then 1 else 0) x₀ (Agrees (ev ++ [(y, t)])) := by
      rw [massWith_eq_sumOver, massWith_eq_sumOver]
      apply sumOver_congr
      intro x
      have : (Agrees ev x ∧ x y = t) ↔ Agrees (ev ++ [(y, t)]) x := by
        simp only [Agrees, List.mem_append, List.mem_singleton]
        constructor
        · rintro ⟨h1, h2⟩ p (hp | rfl)
          · exact h1 p hp
          · exact h2
        · exact fun h => ⟨fun p hp => h p (Or.inl hp), h (y, t) (Or.inr rfl)⟩
      simp only [this]
    rw [e1, e2, e3, hid]
    ring
  exact ⟨out, out', r, r', h1, h1', hr, hr', hp⟩

/-- `v` is separated by its parents from everything else in the graph without the arrows out of `v`. -/
theorem dsep_parents {E : List (V × V)} {Z : V → Prop} {v y : V} (hpar : ∀ p, (p, v) ∈ E → Z p) (hyv : y ≠ v) (hy : ¬ Z y) :
    DSeparated (cutOut E v) Z v y := by
  intro l hn hh hl ha
  have hcut : ∀ {a b : V}, (a, b) ∈ cutOut E v → a ≠ v ∧ (a, b) ∈ E := fun h =>
    ⟨of_decide_eq_true (List.mem_filter.1 h).2, (List.mem_filter.1 h).1⟩
  match l, hh, hl with
  | [a], hh, hl =>
    rw [List.head?_cons, Option.some.injEq] at hh
    rw [List.getLast?_singleton, Option.some.injEq] at hl
    exact hyv (hl.symm.trans hh)
  | a :: p :: l, hh, hl =>
    rw [List.head?_cons, Option.some.injEq] at hh
    subst hh
    have hz : Z p := by
      rcases ha.1 a p ⟨[], l, rfl⟩ with h | h
      · exact absurd rfl (hcut h).1
      · exact hpar p (hcut h).2
    match l, hl with
    | [], hl =>
      have : p = y := by simpa using hl
      exact hy (this ▸ hz)
    | c :: l, hl => exact (ha.2 a p c ⟨[], l, rfl⟩).2 (fun h => (hcut h.1).1 rfl) hz

/-- **C100**, adjustment.  Let an intervention set `v` to `s` and leave the graph in one piece.  Let `zs` be variables that are no descendants of `v` and that
d-separate `v` from `y` in the graph (before the intervention) without the arrows out of `v`: the back-door criterion.  If every combination `ev` of
states of `zs` of positive probability is compatible with `v = s`, then the query without evidence after the intervention gives `y = t` the average, over these combinations,
of what queries with `ev` and `v = s` before the intervention give. -/
theorem do_backdoor {nd : Nondet V} (hnd : nd.Legal) {bn : List (V × Frame V S K)} (hf : Fitted bn) {e e' : Engine V S K}
    (he : Reach nd bn e) {v : V} {s : S} (hdo : e.doIntervention v (.label true s) = (e', .ok ()))
    (hconn : Connected (netNodes e'.cpds)) {x₀ : V → S} (hx₀ : ∀ u ∈ bn.map Prod.fst, x₀ u ∈ domOf bn u)
    {zs : List V} (hzn : zs.Nodup) (hzs : ∀ z ∈ zs, z ∈ bn.map Prod.fst) (hnon : ∀ z ∈ zs, ¬ DescendantOrSelf (netNodes e.cpds) v z)
    {y : V} (hy : y ∈ bn.map Prod.fst) (hsep : DSeparated (cutOut (arrows (netNodes e.cpds)) v) (· ∈ zs) v y)
    (hpos : ∀ ev ∈ assignments (domOf bn) zs, 0 < massOf (domOf bn) (netNodes e.cpds) x₀ (Agrees ev) →
      0 < massOf (domOf bn) (netNodes e.cpds) x₀ (Agrees (ev ++ [(v, s)]))) {t : S} (ht : t ∈ domOf bn y) :
    ∃ (ans : List (V × S) → K) (out' : List (V × List (S × K))),
      (∀ ev ∈ assignments (domOf bn) zs, 0 < massOf (domOf bn) (netNodes e.cpds) x₀ (Agrees ev) →
        ∃ out, e.query nd (ev ++ [(v, s)]) = .ok out ∧ Gives out y t (ans ev)) ∧
      e'.query nd [] = .ok out' ∧
      Gives out' y t ((assignments (domOf bn) zs).map fun ev => massOf (domOf bn) (netNodes e.cpds) x₀ (Agrees ev) * ans ev).sum := by
  classical
  have hi := he.inv hf
  obtain ⟨hv, hs, hcp, hdo'⟩ := do_label_cases hf he hdo
  have hconn0 : Connected (netNodes e.cpds) := connected_of_do (hcp ▸ hconn)
  have hN := hi.network hf hconn0
  have hi' : e'.Inv bn := by
    have := hi.step hf nd (.doIt v (.label true s))
    simpa only [Engine.step, hdo] using this
  have hN' := hi'.network hf hconn
  have hreach' : Reach nd bn e' := by
    obtain ⟨okName, e₀, ops, h1, rfl⟩ := he
    refine ⟨okName, e₀, ops ++ [.doIt v (.label true s)], h1, ?_⟩
    simp only [Engine.run, List.foldl_append, List.foldl_cons, List.foldl_nil, Engine.step]
    simp only [Engine.run] at hdo
    rw [hdo]
  have hvz : v ∉ zs := fun h => hnon v h Relation.ReflTransGen.refl
  have hx : ∀ u ∈ (netNodes e.cpds).map Node.var, x₀ u ∈ e.dom u := by
    rw [netNodes_vars, hi.vars, hi.dom_eq]; exact hx₀
  have hx' : ∀ u ∈ (netNodes e'.cpds).map Node.var, x₀ u ∈ e'.dom u := by
    rw [netNodes_vars, hi'.vars, hi'.dom_eq]; exact hx₀
  -- probabilities after the intervention
  have hd : ∀ A : (V → S) → Prop, ∀ [DecidablePred A], massOf (domOf bn) (netNodes e'.cpds) x₀ A =
      massWith (domOf bn) (bn.map Prod.fst) (truncated (netNodes e.cpds) v fun t => if t = s then 1 else 0) x₀ A := by
    intro A _
    rcases hi.do_cases hf v (.dist ⟨(domOf bn v).toFinset, fun t => if t = s then 1 else 0⟩) with
      ⟨err, h, _, _⟩ | ⟨d', c, e₁, hd', hc, hd, _, h, hi₁, hcp₁⟩
    · rw [h] at hdo'
      cases hdo'
    · rw [h] at hdo'
      cases hdo'
      cases hd'
      have := massOf_do hi hf hc hd x₀ A
      rw [← hcp₁, hi.dom_eq] at this
      exact this
  have hne : ∀ ev ∈ assignments (domOf bn) zs, massOf (domOf bn) (netNodes e'.cpds) x₀ (Agrees ev) =
      massOf (domOf bn) (netNodes e.cpds) x₀ (Agrees ev) := by
    intro ev hev
    rw [hd]
    refine do_nondescendants hf he hdo' hx₀ (Agrees ev) ?_
    intro x x' hxx
    unfold Agrees
    refine forall₂_congr fun p hp => ?_
    have : p.1 ∈ zs := (mem_assignments hev).1 ▸ List.mem_map_of_mem hp
    rw [hxx p.1 (hnon _ this)]
  have hgood : ∀ ev ∈ assignments (domOf bn) zs, ∀ p ∈ ev, p.1 ∈ bn.map Prod.fst ∧ p.2 ∈ domOf bn p.1 := by
    intro ev hev p hp
    obtain ⟨h1, h2⟩ := mem_assignments hev
    exact ⟨hzs _ (h1 ▸ List.mem_map_of_mem hp), h2 p hp⟩
  -- what queries before the intervention say
  have hq : ∀ ev ∈ assignments (domOf bn) zs, 0 < massOf (domOf bn) (netNodes e.cpds) x₀ (Agrees ev) →
      ∃ p out, e.query nd (ev ++ [(v, s)]) = .ok out ∧ Gives out y t p ∧
        massOf (domOf bn) (netNodes e'.cpds) x₀ (fun x => Agrees ev x ∧ x y = t) =
          massOf (domOf bn) (netNodes e.cpds) x₀ (Agrees ev) * p := by
    intro ev hev hp
    have hkeys := (mem_assignments hev).1
    obtain ⟨out, out', r, r', h1, h2, h3, h4, h5⟩ := do_like_observing hnd hf he hdo hconn hx₀ (by rw [hkeys]; exact hzn) (hgood ev hev)
      (by rw [hkeys]; exact hvz) (hpos ev hev hp) hy (by rw [hkeys]; exact hsep)
    obtain ⟨out'', k1, k2⟩ := hi'.query_reports hnd hf hconn (x₀ := x₀) (by rw [← netNodes_vars]; exact hx') (by rw [hkeys]; exact hzn)
      (by
        intro p hp
        rw [netNodes_vars, hi'.vars, hi'.dom_eq]
        exact hgood ev hev p hp) (by rw [hi'.dom_eq, hne ev hev]; exact hp)
    rw [h2] at k1
    cases k1
    rw [hi'.vars, hi'.dom_eq] at k2
    obtain ⟨r'', g1, g2⟩ := k2.gives hy ht
    rw [h4] at g1
    cases g1
    refine ⟨massOf (domOf bn) (netNodes e'.cpds) x₀ (fun x => Agrees ev x ∧ x y = t) / massOf (domOf bn) (netNodes e'.cpds) x₀ (Agrees ev),
      out, h1, ⟨r, h3, ?_⟩, ?_⟩
    · have hnd' : (r.map Prod.fst).Nodup := by
        refine (h5.map Prod.fst).nodup_iff.2 ?_
        have := k2.states _ (lookup_mem h4)
        rw [this.nodup_iff, ← hi'.dom_eq]
        exact hi'.dom_nodup hf (by rw [hi'.vars]; exact hy)
      exact lookup_of_mem_nodup hnd' (h5.mem_iff.2 (lookup_mem g2))
    · rw [hne ev hev, mul_div_cancel₀ _ (ne_of_gt hp)]
  choose! ans hans using hq
  obtain ⟨dom', h, hdn, hx₁⟩ := exists_total_dom hN'.states_nodup hx'
  have hone : massOf e'.dom (netNodes e'.cpds) x₀ (Agrees []) = 1 := by
    rw [← massOf_dom_congr h, ← massOf_total hN'.wf hN'.acyclic (hN'.congr h).normalised hx₁]
    apply massOf_congr
    intro x; simp [Agrees]
  obtain ⟨out', k1, k2⟩ := hi'.query_reports hnd hf hconn (x₀ := x₀) (by rw [← netNodes_vars]; exact hx') (ev := []) List.nodup_nil
    (by intro p hp; simp at hp) (by rw [hone]; exact one_pos)
  refine ⟨ans, out', fun ev hev hp => ?_, k1, ?_⟩
  · obtain ⟨out, h1, h2, _⟩ := hans ev hev hp
    exact ⟨out, h1, h2⟩
  · have hg := k2.gives (y := y) (by rw [hi'.vars]; exact hy) (t := t) (by rw [hi'.dom_eq]; exact ht)
    rw [hone, div_one] at hg
    have e1 : massOf e'.dom (netNodes e'.cpds) x₀ (fun x => Agrees [] x ∧ x y = t) = massOf e'.dom (netNodes e'.cpds) x₀ (fun x => x y = t) :=
      massOf_congr fun x => by simp [Agrees]
    have hzs' : ∀ z ∈ zs, z ∈ (netNodes e'.cpds).map Node.var := by
      intro z hz
      rw [netNodes_vars, hi'.vars]
      exact hzs z hz
    have e2 := massOf_assignments hdn hN'.wf zs hzs' x₀ (fun x => x y = t)
    rw [assignments_congr fun z hz => h z (hzs' z hz)] at e2
    simp only [massOf_dom_congr h] at e2
    rw [e1, ← e2, hi'.dom_eq] at hg
    convert hg using 2
    apply List.map_congr_left
    intro ev hev
    by_cases hp : 0 < massOf (domOf bn) (netNodes e.cpds) x₀ (Agrees ev)
    · exact (hans ev hev hp).choose_spec.2.2.symm
    · have h0 : massOf (domOf bn) (netNodes e.cpds) x₀ (Agrees ev) = 0 := by
        rw [← hi.dom_eq] at hp ⊢
        exact le_antisymm (not_lt.1 hp) (massOf_nonneg' hN hx _)
      rw [h0, zero_mul]
      have h1 := massOf_mono' hN' hx' (A := fun x => Agrees ev x ∧ x y = t) (B := Agrees ev) fun x h => h.1
      have h2 := massOf_nonneg' hN' hx' fun x => Agrees ev x ∧ x y = t
      rw [hi'.dom_eq] at h1 h2
      rw [hne ev hev, h0] at h1
      exact le_antisymm h2 h1

theorem dsep_root {E : List (V × V)} {Z : V → Prop} {v y : V} (hroot : ∀ p, (p, v) ∉ E) (hyv : y ≠ v) : DSeparated (cutOut E v) Z v y := by
  intro l hn hh hl ha
  match l, hh, hl with
  | [a], hh, hl =>
    rw [List.head?_cons, Option.some.injEq] at hh
    rw [List.getLast?_singleton, Option.some.injEq] at hl
    exact hyv (hl.symm.trans hh)
  | a :: p :: l, hh, hl =>
    rw [List.head?_cons, Option.some.injEq] at hh
    subst hh
    rcases ha.1 a p ⟨[], l, rfl⟩ with h | h
    · exact absurd rfl (of_decide_eq_true (List.mem_filter.1 h).2)
    · exact hroot p (List.mem_filter.1 h).1

/-- Parents of `v` in the current graph. -/
theorem mem_arrows_parent {nd : Nondet V} {bn : List (V × Frame V S K)} (hf : Fitted bn) {e : Engine V S K} (he : Reach nd bn e) {v : V}
    {c : Cpd V S K} (hc : e.cpds.lookup v = some c) (p : V) : (p, v) ∈ arrows (netNodes e.cpds) ↔ p ∈ c.parents := by
  have hi := he.inv hf
  have hmem : (⟨cpdFactor (v, c), v⟩ : Node V S K) ∈ netNodes e.cpds :=
    List.mem_map_of_mem (f := fun q : V × Cpd V S K => (⟨cpdFactor q, q.1⟩ : Node V S K)) (lookup_mem hc)
  rw [link_arrows]
  constructor
  · rintro ⟨n, hn, hnv, hp, hne⟩
    obtain ⟨q, hq, rfl⟩ := List.mem_map.1 hn
    obtain ⟨w, c'⟩ := q
    have hnv : w = v := hnv
    subst hnv
    have := lookup_of_mem_nodup (by rw [hi.vars]; exact hf.nodup) hq
    rw [hc] at this
    cases this
    exact (List.mem_cons.1 hp).resolve_left hne
  · intro hp
    refine ⟨_, hmem, rfl, List.mem_cons_of_mem _ hp, ?_⟩
    rintro rfl
    have := (hi.wf hf).args_nodup _ hmem
    exact (List.nodup_cons.1 this).1 hp

/-- **C100**, variables without parents: setting `v` to `s` is like observing it, for all evidence and all other variables. -/
theorem do_root {nd : Nondet V} (hnd : nd.Legal) {bn : List (V × Frame V S K)} (hf : Fitted bn) {e e' : Engine V S K}
    (he : Reach nd bn e) {v : V} {s : S} (hdo : e.doIntervention v (.label true s) = (e', .ok ()))
    {c : Cpd V S K} (hc : e.cpds.lookup v = some c) (hroot : c.parents = [])
    (hconn : Connected (netNodes e'.cpds)) {x₀ : V → S} (hx₀ : ∀ u ∈ bn.map Prod.fst, x₀ u ∈ domOf bn u)
    {ev : List (V × S)} (hk : (ev.map Prod.fst).Nodup) (hev : ∀ p ∈ ev, p.1 ∈ bn.map Prod.fst ∧ p.2 ∈ domOf bn p.1)
    (hvev : v ∉ ev.map Prod.fst) (hpos : 0 < massOf (domOf bn) (netNodes e.cpds) x₀ (Agrees (ev ++ [(v, s)])))
    {y : V} (hy : y ∈ bn.map Prod.fst) (hyv : y ≠ v) :
    ∃ out out' r r', e.query nd (ev ++ [(v, s)]) = .ok out ∧ e'.query nd ev = .ok out' ∧
      out.lookup y = some r ∧ out'.lookup y = some r' ∧ r.Perm r' := by
  refine do_like_observing hnd hf he hdo hconn hx₀ hk hev hvev hpos hy (dsep_root ?_ hyv)
  intro p hp
  rw [mem_arrows_parent hf he hc, hroot] at hp
  exact List.not_mem_nil hp

/-- **C100**, adjustment for the parents: if every combination `ev` of states of the parents of `v` of positive probability is compatible with `v = s`,
then after setting `v` to `s` the query without evidence gives every `y` other than `v` and its parents the average, over these combinations,
of what queries with `ev` and `v = s` before the intervention give. -/
theorem do_adjust_parents {nd : Nondet V} (hnd : nd.Legal) {bn : List (V × Frame V S K)} (hf : Fitted bn) {e e' : Engine V S K}
    (he : Reach nd bn e) {v : V} {s : S} (hdo : e.doIntervention v (.label true s) = (e', .ok ()))
    (hconn : Connected (netNodes e'.cpds)) {x₀ : V → S} (hx₀ : ∀ u ∈ bn.map Prod.fst, x₀ u ∈ domOf bn u)
    {c : Cpd V S K} (hc : e.cpds.lookup v = some c)
    (hpos : ∀ ev ∈ assignments (domOf bn) c.parents, 0 < massOf (domOf bn) (netNodes e.cpds) x₀ (Agrees ev) →
      0 < massOf (domOf bn) (netNodes e.cpds) x₀ (Agrees (ev ++ [(v, s)])))
    {y : V} (hy : y ∈ bn.map Prod.fst) (hyv : y ≠ v) (hyp : y ∉ c.parents) {t : S} (ht : t ∈ domOf bn y) :
    ∃ (ans : List (V × S) → K) (out' : List (V × List (S × K))),
      (∀ ev ∈ assignments (domOf bn) c.parents, 0 < massOf (domOf bn) (netNodes e.cpds) x₀ (Agrees ev) →
        ∃ out, e.query nd (ev ++ [(v, s)]) = .ok out ∧ Gives out y t (ans ev)) ∧
      e'.query nd [] = .ok out' ∧
      Gives out' y t ((assignments (domOf bn) c.parents).map fun ev =>
        massOf (domOf bn) (netNodes e.cpds) x₀ (Agrees ev) * ans ev).sum := by
  have hi := he.inv hf
  have hmem : (⟨cpdFactor (v, c), v⟩ : Node V S K) ∈ netNodes e.cpds :=
    List.mem_map_of_mem (f := fun q : V × Cpd V S K => (⟨cpdFactor q, q.1⟩ : Node V S K)) (lookup_mem hc)
  have hargs := (hi.wf hf).args_nodup _ hmem
  refine do_backdoor hnd hf he hdo hconn hx₀ (List.nodup_cons.1 hargs).2 ?_ ?_ hy ?_ hpos ht
  · intro z hz
    have := (hi.wf hf).args_sub _ hmem z (List.mem_cons_of_mem _ hz)
    rw [netNodes_vars, hi.vars] at this
    exact this
  · intro z hz hdesc
    have hzv := (mem_arrows_parent hf he hc z).2 hz
    exact hi.acyclic hf v (Relation.TransGen.tail' hdesc hzv)
  · refine dsep_parents ?_ hyv hyp
    intro p hp
    exact (mem_arrows_parent hf he hc p).1 hp

/-! ### C101 -/

omit [LinearOrder K] [IsStrictOrderedRing K] in
theorem sum_mixture {α : Type} (l : List S) (w : S → K) (m : List α) (f : S → α → K) :
    (l.map fun s => w s * (m.map (f s)).sum).sum = (m.map fun a => (l.map fun s => w s * f s a).sum).sum := by
  induction m with
  | nil => simp
  | cons a m ih =>
    simp only [List.map_cons, List.sum_cons, mul_add]
    rw [List.sum_map_add, ih]

/-- **C101.** Let an intervention set `v` to a distribution and leave the graph in one piece.  Then setting `v` to any one of its states is
accepted as well, and the query without evidence after the intervention gives `y = t` the average, with the weights of the distribution, of
what the queries give after setting `v` to its states. -/
theorem do_mixture {nd : Nondet V} (hnd : nd.Legal) {bn : List (V × Frame V S K)} (hf : Fitted bn) {e e' : Engine V S K}
    (he : Reach nd bn e) {v : V} {d : Dist S K} (hdo : e.doIntervention v (.dist d) = (e', .ok ()))
    (hconn : Connected (netNodes e'.cpds)) {x₀ : V → S} (hx₀ : ∀ u ∈ bn.map Prod.fst, x₀ u ∈ domOf bn u)
    {y : V} (hy : y ∈ bn.map Prod.fst) {t : S} (ht : t ∈ domOf bn y) :
    ∃ (ans : S → K) (out' : List (V × List (S × K))),
      (∀ s ∈ domOf bn v, ∃ e₁ out, e.doIntervention v (.label true s) = (e₁, .ok ()) ∧ e₁.query nd [] = .ok out ∧ Gives out y t (ans s)) ∧
      e'.query nd [] = .ok out' ∧ Gives out' y t ((domOf bn v).map fun s => d.val s * ans s).sum := by
  have hi := he.inv hf
  have hrej := (do_rejects_iff hf he v d).1
  have hp : ∃ q ∈ e.cpds, v ∈ q.2.parents := by
    by_contra h
    obtain ⟨err, h'⟩ := hrej.2 (Or.inl h)
    rw [hdo] at h'
    cases h'
  have hv := hi.isParent_mem hf hp
  rw [hi.vars] at hv
  rcases hi.do_cases hf v (.dist d) with ⟨err, h, _, _⟩ | ⟨d', c, e₁, hd', hc, hd, _, h, hi', hcp⟩
  · rw [h] at hdo
    cases hdo
  rw [h] at hdo
  cases hdo
  cases hd'
  -- a query without evidence
  have hquery : ∀ e₂ : Engine V S K, e₂.Inv bn → Connected (netNodes e₂.cpds) → ∃ out, e₂.query nd [] = .ok out ∧
      Gives out y t (massOf (domOf bn) (netNodes e₂.cpds) x₀ (fun x => x y = t)) := by
    intro e₂ hi₂ hc₂
    have hN := hi₂.network hf hc₂
    have hx : ∀ u ∈ (netNodes e₂.cpds).map Node.var, x₀ u ∈ e₂.dom u := by
      rw [netNodes_vars, hi₂.vars, hi₂.dom_eq]; exact hx₀
    obtain ⟨dom', h, hdn, hx₁⟩ := exists_total_dom hN.states_nodup hx
    have hone : massOf e₂.dom (netNodes e₂.cpds) x₀ (Agrees []) = 1 := by
      rw [← massOf_dom_congr h, ← massOf_total hN.wf hN.acyclic (hN.congr h).normalised hx₁]
      apply massOf_congr
      intro x; simp [Agrees]
    obtain ⟨out, k1, k2⟩ := hi₂.query_reports hnd hf hc₂ (x₀ := x₀) (by rw [← netNodes_vars]; exact hx) (ev := []) List.nodup_nil
      (by intro p hp; simp at hp) (by rw [hone]; exact one_pos)
    refine ⟨out, k1, ?_⟩
    have hg := k2.gives (y := y) (by rw [hi₂.vars]; exact hy) (t := t) (by rw [hi₂.dom_eq]; exact ht)
    rw [hone, div_one] at hg
    have e1 : massOf e₂.dom (netNodes e₂.cpds) x₀ (fun x => Agrees [] x ∧ x y = t) = massOf e₂.dom (netNodes e₂.cpds) x₀ (fun x => x y = t) :=
      massOf_congr fun x => by simp [Agrees]
    rw [e1, hi₂.dom_eq] at hg
    exact hg
  obtain ⟨out', k1, k2⟩ := hquery e' hi' hconn
  have hvd : (domOf bn v).Nodup := by
    rw [← hi.dom_eq]
    exact hi.dom_nodup hf (by rw [hi.vars]; exact hv)
  refine ⟨fun s => massWith (domOf bn) (bn.map Prod.fst) (truncated (netNodes e.cpds) v fun t => if t = s then 1 else 0) x₀ (fun x => x y = t),
    out', ?_, k1, ?_⟩
  · intro s hs
    have hacc : ∃ e₁, e.doIntervention v (.label true s) = (e₁, .ok ()) := by
      rcases hres : e.doIntervention v (.label true s) with ⟨e₁, r⟩
      cases r with
      | ok u => exact ⟨e₁, rfl⟩
      | error err =>
        have := (do_label_rejects_iff hf he v s).1.1 ⟨err, by rw [hres]⟩
        rcases this with h1 | h1
        · exact absurd hp h1
        · exact absurd hs h1
    obtain ⟨e₁, he₁⟩ := hacc
    obtain ⟨-, -, hcp₁, hdo₁⟩ := do_label_cases hf he he₁
    have hi₁ : e₁.Inv bn := by
      have := hi.step hf nd (.doIt v (.label true s))
      simpa only [Engine.step, he₁] using this
    have hconn₁ : Connected (netNodes e₁.cpds) := by
      have hvars : (netNodes e₁.cpds).map Node.var = (netNodes e'.cpds).map Node.var := by
        rw [netNodes_vars, netNodes_vars, hi₁.vars, hi'.vars]
      have harr : arrows (netNodes e₁.cpds) = arrows (netNodes e'.cpds) := by
        rw [hcp, hcp₁]
        unfold arrows netNodes setCpd
        rw [List.map_map, List.map_map, List.flatMap_map, List.flatMap_map]
        congr 1
        funext q
        by_cases hq : q.1 = v
        · simp [hq, cpdFactor, interventionCpd, Node.parents]
        · simp [hq]
      intro u hu w hw
      rw [hvars] at hu hw
      rw [harr]
      exact hconn u hu w hw
    obtain ⟨out, h1, h2⟩ := hquery e₁ hi₁ hconn₁
    refine ⟨e₁, out, he₁, h1, ?_⟩
    rcases hi.do_cases hf v (.dist ⟨(domOf bn v).toFinset, fun t => if t = s then 1 else 0⟩) with
      ⟨err, h, _, _⟩ | ⟨d', c', e₂, hd', hc', hdd, _, h, hi₂, hcp₂⟩
    · rw [h] at hdo₁
      cases hdo₁
    · rw [h] at hdo₁
      cases hdo₁
      cases hd'
      have := massOf_do hi hf hc' hdd x₀ (fun x => x y = t)
      rw [← hcp₂, hi.dom_eq] at this
      rw [this] at h2
      exact h2
  · have hm := massOf_do hi hf hc hd x₀ (fun x => x y = t)
    rw [← hcp, hi.dom_eq] at hm
    rw [hm] at k2
    convert k2 using 1
    unfold massWith
    rw [sum_mixture]
    congr 1
    apply List.map_congr_left
    intro x hx
    have hxv : x v ∈ domOf bn v := (worlds_valid (List.mem_filter.1 hx).1 v).1 hv
    unfold truncated
    have : ∀ s, d.val s * ((if x v = s then 1 else 0) *
        (((netNodes e.cpds).filter fun n => n.var ≠ v).map fun n => n.fn (n.args.map x)).prod) =
        if x v = s then d.val (x v) * (((netNodes e.cpds).filter fun n => n.var ≠ v).map fun n => n.fn (n.args.map x)).prod else 0 := by
      intro s
      by_cases h : x v = s
      · subst h
        simp
      · simp [h]
    simp only [this]
    rw [← sum_finset_list hvd, Finset.sum_ite_eq, if_pos (List.mem_toFinset.2 hxv)]

end

/-! ### Examples -/

/-- Setting 1 to `true` in `0 → 1 → 2`, `0 → 2`: accepted, and the graph stays in one piece. -/
theorem exAct : ∃ e e' : Engine ℕ Bool ℚ, Reach exNd exBn e ∧ e.cpds = cpdsOf exBn ∧ e.doIntervention 1 (.label true true) = (e', .ok ()) ∧
    Connected (netNodes e'.cpds) := by
  obtain ⟨e, _, hr, hcp⟩ := ex_fresh exBn_fitted
  have hacc : ∃ e₁, e.doIntervention 1 (.label true true) = (e₁, .ok ()) := by
    rcases hres : e.doIntervention 1 (.label true true) with ⟨e₁, r⟩
    cases r with
    | ok u => exact ⟨e₁, rfl⟩
    | error err =>
      have := (do_label_rejects_iff exBn_fitted hr 1 true).1.1 ⟨err, by rw [hres]⟩
      rw [hcp] at this
      exact absurd this (by decide)
  obtain ⟨e', he'⟩ := hacc
  refine ⟨e, e', hr, hcp, he', ?_⟩
  obtain ⟨-, -, h3, -⟩ := do_label_cases exBn_fitted hr he'
  have hv : (netNodes e'.cpds).map Node.var = [0, 1, 2] := by rw [h3, hcp]; decide
  have harr : arrows (netNodes e'.cpds) = [(0, 2), (1, 2)] := by
    rw [h3, hcp]; decide
  have h0 : ∀ u ∈ (netNodes e'.cpds).map Node.var, Graph.WConn (arrows (netNodes e'.cpds)) 2 u := by
    intro u hu
    rw [hv] at hu
    rw [harr]
    have : u = 0 ∨ u = 1 ∨ u = 2 := by simpa using hu
    rcases this with rfl | rfl | rfl
    · exact (Graph.wconn_of_mem (by decide)).symm
    · exact (Graph.wconn_of_mem (by decide)).symm
    · exact Relation.ReflTransGen.refl
  intro u hu w hw
  exact (Graph.WConn.symm (h0 u hu)).trans (h0 w hw)

/-- `do_like_observing`: given the parent 0, acting on 1 is like observing it.  Without evidence it is not: the probability of `2 = true` is
61/82 if `1 = true` is observed, and 19/40 if 1 is set to `true`. -/
example : ∃ e e' : Engine ℕ Bool ℚ, Reach exNd exBn e ∧ e.doIntervention 1 (.label true true) = (e', .ok ()) ∧
    (∃ out out' r r', e.query exNd ([(0, true)] ++ [(1, true)]) = .ok out ∧ e'.query exNd [(0, true)] = .ok out' ∧
      out.lookup 2 = some r ∧ out'.lookup 2 = some r' ∧ r.Perm r') ∧
    massOf (domOf exBn) (netNodes e.cpds) (fun _ => true) (fun x => Agrees [(1, true)] x ∧ x 2 = true) /
      massOf (domOf exBn) (netNodes e.cpds) (fun _ => true) (Agrees [(1, true)]) = 61 / 82 ∧
    massWith (domOf exBn) (exBn.map Prod.fst) (truncated (netNodes e.cpds) 1 fun t => if t = true then 1 else 0) (fun _ => true)
      (fun x => x 2 = true) = 19 / 40 := by
  obtain ⟨e, e', hr, hcp, hdo, hconn⟩ := exAct
  refine ⟨e, e', hr, hdo, do_like_observing exNd_legal exBn_fitted hr hdo hconn (x₀ := fun _ => true)
    (fun u hu => by rw [exBn_dom hu]; simp) (by decide) (by decide) (by decide) ?_ (by decide) ?_, ?_, ?_⟩
  · rw [hcp]
    decide +kernel
  · rw [hcp]
    refine dsep_parents ?_ (by decide) (by decide)
    have : ∀ e ∈ arrows (netNodes (cpdsOf exBn)), e.2 = 1 → e.1 ∈ ([(0, true)] : List (ℕ × Bool)).map Prod.fst := by decide
    exact fun p hp => this _ hp rfl
  · rw [hcp]
    decide +kernel
  · rw [hcp]
    decide +kernel

/-- `do_adjust_parents` (hence `do_backdoor`) for 2 after setting 1. -/
example : ∃ e e' : Engine ℕ Bool ℚ, Reach exNd exBn e ∧ e.doIntervention 1 (.label true true) = (e', .ok ()) ∧
    ∃ (ans : List (ℕ × Bool) → ℚ) (out' : List (ℕ × List (Bool × ℚ))),
      (∀ ev ∈ assignments (domOf exBn) [0], 0 < massOf (domOf exBn) (netNodes e.cpds) (fun _ => true) (Agrees ev) →
        ∃ out, e.query exNd (ev ++ [(1, true)]) = .ok out ∧ Gives out 2 true (ans ev)) ∧
      e'.query exNd [] = .ok out' ∧
      Gives out' 2 true ((assignments (domOf exBn) [0]).map fun ev =>
        massOf (domOf exBn) (netNodes e.cpds) (fun _ => true) (Agrees ev) * ans ev).sum := by
  obtain ⟨e, e', hr, hcp, hdo, hconn⟩ := exAct
  obtain ⟨c, hc, hpar⟩ : ∃ c, e.cpds.lookup 1 = some c ∧ c.parents = [0] := by
    rw [hcp]
    exact ⟨_, rfl, rfl⟩
  have := do_adjust_parents exNd_legal exBn_fitted hr hdo hconn (x₀ := fun _ => true) (fun u hu => by rw [exBn_dom hu]; simp) hc
    (by
      rw [hcp, hpar]
      decide +kernel) (y := 2) (by decide) (by decide) (by rw [hpar]; decide) (t := true) (by decide)
  rw [hpar] at this
  exact ⟨e, e', hr, hdo, this⟩

/-- `do_mixture` for an intervention with weights 2/3 and 1/3. -/
example : ∃ e e' : Engine ℕ Bool ℚ, Reach exNd exBn e ∧ e.doIntervention 1 (.dist exDist) = (e', .ok ()) ∧
    ∃ (ans : Bool → ℚ) (out' : List (ℕ × List (Bool × ℚ))),
      (∀ s ∈ domOf exBn 1, ∃ e₁ out, e.doIntervention 1 (.label true s) = (e₁, .ok ()) ∧ e₁.query exNd [] = .ok out ∧ Gives out 2 true (ans s)) ∧
      e'.query exNd [] = .ok out' ∧ Gives out' 2 true ((domOf exBn 1).map fun s => exDist.val s * ans s).sum := by
  obtain ⟨e, _, hr, hcp⟩ := ex_fresh exBn_fitted
  obtain ⟨e', h1, _, h3⟩ := ex_do exBn_fitted (fun _ => exBn_dom) hr (v := 1) (by rw [hcp]; decide)
  refine ⟨e, e', hr, h1, do_mixture exNd_legal exBn_fitted hr h1 ?_ (x₀ := fun _ => true) (fun u hu => by rw [exBn_dom hu]; simp)
    (by decide) (by decide)⟩
  obtain ⟨f, f', hrf, hcf, hdf, hconn⟩ := exAct
  obtain ⟨-, -, h4, -⟩ := do_label_cases exBn_fitted hrf hdf
  have hv : (netNodes e'.cpds).map Node.var = (netNodes f'.cpds).map Node.var := by rw [h3, h4, hcp, hcf]; decide
  have harr : arrows (netNodes e'.cpds) = arrows (netNodes f'.cpds) := by rw [h3, h4, hcp, hcf]; decide
  intro u hu w hw
  rw [hv] at hu hw
  rw [harr]
  exact hconn u hu w hw

/-- `do_root`: setting 0 in `0 → 1 → 2`, with evidence on 1. -/
example : ∃ e e' : Engine ℕ Bool ℚ, Reach exNd exChain e ∧ e.doIntervention 0 (.label true false) = (e', .ok ()) ∧
    ∃ out out' r r', e.query exNd ([(1, true)] ++ [(0, false)]) = .ok out ∧ e'.query exNd [(1, true)] = .ok out' ∧
      out.lookup 2 = some r ∧ out'.lookup 2 = some r' ∧ r.Perm r' := by
  obtain ⟨e, _, hr, hcp⟩ := ex_fresh exChain_fitted
  have hacc : ∃ e₁, e.doIntervention 0 (.label true false) = (e₁, .ok ()) := by
    rcases hres : e.doIntervention 0 (.label true false) with ⟨e₁, r⟩
    cases r with
    | ok u => exact ⟨e₁, rfl⟩
    | error err =>
      have := (do_label_rejects_iff exChain_fitted hr 0 false).1.1 ⟨err, by rw [hres]⟩
      rw [hcp] at this
      exact absurd this (by decide)
  obtain ⟨e', he'⟩ := hacc
  obtain ⟨-, -, h3, -⟩ := do_label_cases exChain_fitted hr he'
  obtain ⟨c, hc, hpar⟩ : ∃ c, e.cpds.lookup 0 = some c ∧ c.parents = [] := by
    rw [hcp]
    exact ⟨_, rfl, rfl⟩
  refine ⟨e, e', hr, he', do_root exNd_legal exChain_fitted hr he' hc hpar ?_ (x₀ := fun _ => true) (fun u hu => by rw [exChain_dom hu]; simp)
    (by decide) (by decide) (by decide) ?_ (by decide) (by decide)⟩
  · have hv : (netNodes e'.cpds).map Node.var = (netNodes (cpdsOf exChain)).map Node.var := by rw [h3, hcp]; decide
    have harr : arrows (netNodes e'.cpds) = arrows (netNodes (cpdsOf exChain)) := by rw [h3, hcp]; decide
    intro u hu w hw
    rw [hv] at hu hw
    rw [harr]
    exact exChain_fitted.connected u hu w hw
  · rw [hcp]
    decide +kernel

end Verif.BBN
