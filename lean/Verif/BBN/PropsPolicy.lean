import Verif.BBN.Policy
import Verif.BBN.PropsDSep

/-!
# C102: interventions without effect
-/

namespace Verif.BBN
open Function Graph

section
variable {V S K : Type} [LinearOrder V] [DecidableEq S] [Field K] [LinearOrder K] [IsStrictOrderedRing K]

omit [DecidableEq S] [LinearOrder K] [IsStrictOrderedRing K] in
theorem netNodes_setCpd (cpds : List (V × Cpd V S K)) (v : V) (c : Cpd V S K) :
    netNodes (setCpd cpds v c) = (netNodes cpds).map fun n => if n.var = v then ⟨cpdFactor (v, c), v⟩ else n := by
  unfold netNodes setCpd
  rw [List.map_map, List.map_map]
  apply List.map_congr_left
  intro q _
  simp only [comp_def]
  by_cases h : q.1 = v
  · rw [if_pos h, if_pos h]
  · rw [if_neg h, if_neg h]

/-- Two engines that differ in the table of `v` only. -/
theorem replace_no_effect {nd : Nondet V} (hnd : nd.Legal) {bn : List (V × Frame V S K)} (hf : Fitted bn) {e e' : Engine V S K}
    (hi : e.Inv bn) (hi' : e'.Inv bn) (hconn : Connected (netNodes e.cpds)) (hconn' : Connected (netNodes e'.cpds)) {v : V} {c c' : Cpd V S K}
    (hc : (v, c) ∈ e.cpds) (hcp : e'.cpds = setCpd e.cpds v c') (hsub : ∀ p ∈ c'.parents, p ∈ c.parents)
    {x₀ : V → S} (hx₀ : ∀ u ∈ bn.map Prod.fst, x₀ u ∈ domOf bn u) {ev : List (V × S)} (hk : (ev.map Prod.fst).Nodup)
    (hev : ∀ p ∈ ev, p.1 ∈ bn.map Prod.fst ∧ p.2 ∈ domOf bn p.1)
    (hpos : 0 < massOf (domOf bn) (netNodes e.cpds) x₀ (Agrees ev)) (hpos' : 0 < massOf (domOf bn) (netNodes e'.cpds) x₀ (Agrees ev))
    {y : V} (hy : y ∈ bn.map Prod.fst) (hyev : y ∉ ev.map Prod.fst)
    (hsep : NoEffect (arrows (netNodes e.cpds)) (ev.map Prod.fst) v y) :
    ∃ out out' r r', e.query nd ev = .ok out ∧ e'.query nd ev = .ok out' ∧
      out.lookup y = some r ∧ out'.lookup y = some r' ∧ r.Perm r' := by
  have hN := hi.network hf hconn
  have hN' := hi'.network hf hconn'
  have hgood : ∀ e₁ : Engine V S K, e₁.Inv bn → GoodEvidence e₁.dom (netNodes e₁.cpds) ev := by
    intro e₁ hi₁ p hp
    rw [netNodes_vars, hi₁.vars, hi₁.dom_eq]
    exact hev p hp
  have hx : ∀ e₁ : Engine V S K, e₁.Inv bn → ∀ u ∈ e₁.cpds.map Prod.fst, x₀ u ∈ e₁.dom u := by
    intro e₁ hi₁
    rw [hi₁.vars, hi₁.dom_eq]; exact hx₀
  obtain ⟨out, h1, h2⟩ := hi.query_reports hnd hf hconn (hx e hi) hk (hgood e hi) (by rw [hi.dom_eq]; exact hpos)
  obtain ⟨out', h1', h2'⟩ := hi'.query_reports hnd hf hconn' (hx e' hi') hk (hgood e' hi') (by rw [hi'.dom_eq]; exact hpos')
  rw [hi.vars, hi.dom_eq] at h2
  rw [hi'.vars, hi'.dom_eq] at h2'
  obtain ⟨r, r', hr, hr', hp⟩ := h2.same h2' (v := y) hy fun t => by
    have hg := hgood e hi
    rw [hi.dom_eq] at hN hg
    rw [hi'.dom_eq] at hN'
    have := massOf_policy hN.wf hN.acyclic hN.normalised hN'.wf hN'.acyclic hN'.normalised hN.states_nodup (v := v)
      (m := ⟨cpdFactor (v, c), v⟩) (m' := ⟨cpdFactor (v, c'), v⟩)
      (List.mem_map.2 ⟨(v, c), hc, rfl⟩) rfl rfl (by
        intro a ha
        rcases List.mem_cons.1 ha with rfl | ha
        · exact List.mem_cons_self
        · exact List.mem_cons_of_mem _ (hsub a ha)) (by rw [hcp, netNodes_setCpd]) (x₀ := x₀)
      (by rw [netNodes_vars, hi.vars]; exact hx₀) hk hg hyev hsep t
    rw [div_eq_div_iff (ne_of_gt hpos) (ne_of_gt hpos')]
    exact this
  exact ⟨out, out', r, r', h1, h1', hr, hr', hp⟩

/-- **C102.** Let an intervention on `v`, by a state or by a distribution, be accepted and leave the graph in one piece.  If, in the graph before the intervention
with a further node whose only arrow points to `v`, the variables of the evidence `ev` d-separate that node from `y`, and the evidence is
possible before and after, then the queries with `ev` before and after the intervention both succeed and report the same dictionary for `y`. -/
theorem do_no_effect {nd : Nondet V} (hnd : nd.Legal) {bn : List (V × Frame V S K)} (hf : Fitted bn) {e e' : Engine V S K}
    (he : Reach nd bn e) {v : V} {a : DoArg S K} (hdo : e.doIntervention v a = (e', .ok ()))
    (hconn : Connected (netNodes e'.cpds)) {x₀ : V → S} (hx₀ : ∀ u ∈ bn.map Prod.fst, x₀ u ∈ domOf bn u)
    {ev : List (V × S)} (hk : (ev.map Prod.fst).Nodup) (hev : ∀ p ∈ ev, p.1 ∈ bn.map Prod.fst ∧ p.2 ∈ domOf bn p.1)
    (hpos : 0 < massOf (domOf bn) (netNodes e.cpds) x₀ (Agrees ev)) (hpos' : 0 < massOf (domOf bn) (netNodes e'.cpds) x₀ (Agrees ev))
    {y : V} (hy : y ∈ bn.map Prod.fst) (hyev : y ∉ ev.map Prod.fst)
    (hsep : NoEffect (arrows (netNodes e.cpds)) (ev.map Prod.fst) v y) :
    ∃ out out' r r', e.query nd ev = .ok out ∧ e'.query nd ev = .ok out' ∧
      out.lookup y = some r ∧ out'.lookup y = some r' ∧ r.Perm r' := by
  have hi := he.inv hf
  rcases hi.do_cases hf v a with ⟨err, h, _, _⟩ | ⟨d, c₀, e₁, -, -, -, hp, h, hi', hcp⟩
  · rw [h] at hdo
    cases hdo
  rw [h] at hdo
  cases hdo
  have hv := hi.isParent_mem hf hp
  obtain ⟨q, hq, rfl⟩ := List.mem_map.1 hv
  exact replace_no_effect hnd hf hi hi' (connected_of_do (hcp ▸ hconn)) hconn hq hcp (fun p hp => by simp [interventionCpd] at hp)
    hx₀ hk hev hpos hpos' hy hyev hsep

/-- **C102**, undoing.  The same for `reset_do`: if in the graph after the reset, with a further node whose only arrow points to `v`, the evidence d-separates that
node from `y`, then the queries before and after the reset report the same dictionary for `y`. -/
theorem reset_no_effect {nd : Nondet V} (hnd : nd.Legal) {bn : List (V × Frame V S K)} (hf : Fitted bn) {e e' : Engine V S K}
    (he : Reach nd bn e) {v : V} (hre : e.resetDo v = (e', .ok ())) (hconn : Connected (netNodes e.cpds))
    {x₀ : V → S} (hx₀ : ∀ u ∈ bn.map Prod.fst, x₀ u ∈ domOf bn u)
    {ev : List (V × S)} (hk : (ev.map Prod.fst).Nodup) (hev : ∀ p ∈ ev, p.1 ∈ bn.map Prod.fst ∧ p.2 ∈ domOf bn p.1)
    (hpos : 0 < massOf (domOf bn) (netNodes e.cpds) x₀ (Agrees ev)) (hpos' : 0 < massOf (domOf bn) (netNodes e'.cpds) x₀ (Agrees ev))
    {y : V} (hy : y ∈ bn.map Prod.fst) (hyev : y ∉ ev.map Prod.fst)
    (hsep : NoEffect (arrows (netNodes e'.cpds)) (ev.map Prod.fst) v y) :
    ∃ out out' r r', e.query nd ev = .ok out ∧ e'.query nd ev = .ok out' ∧
      out.lookup y = some r ∧ out'.lookup y = some r' ∧ r.Perm r' := by
  have hi := he.inv hf
  rcases hi.reset_cases hf v with ⟨_, h⟩ | ⟨hv, c, e₁, hc, h, hi', hcp⟩
  · rw [h] at hre
    cases hre
  rw [h] at hre
  cases hre
  have hv' := hv
  rw [← hi.vars] at hv
  obtain ⟨q, hq, rfl⟩ := List.mem_map.1 hv
  have hnd' : (e.cpds.map Prod.fst).Nodup := by rw [hi.vars]; exact hf.nodup
  have hmem : (q.1, c) ∈ e'.cpds := by
    rw [hcp]
    exact List.mem_map.2 ⟨q, hq, by rw [if_pos rfl]⟩
  have hback : e.cpds = setCpd e'.cpds q.1 q.2 := by
    rw [hcp]
    unfold setCpd
    rw [List.map_map]
    conv_lhs => rw [← List.map_id e.cpds]
    apply List.map_congr_left
    intro p hp
    simp only [comp_def, id]
    by_cases h : p.1 = q.1
    · have : p = q := List.inj_on_of_nodup_map hnd' hp hq h
      subst this
      simp
    · simp [h]
  have hsub : ∀ p ∈ q.2.parents, p ∈ c.parents := by
    intro p hp
    rcases hi.each q hq with h | ⟨c', h1, d, -, h2⟩
    · have hl : e.orig.lookup q.1 = some q.2 := lookup_of_mem_nodup (by rw [hi.orig_eq, cpdsOf_vars]; exact hf.nodup) h
      rw [hc] at hl
      cases hl
      exact hp
    · rw [h2] at hp
      simp [interventionCpd] at hp
  have hconn' : Connected (netNodes e'.cpds) := by
    intro u hu w hw
    rw [netNodes_vars, hi'.vars, ← hi.vars, ← netNodes_vars] at hu hw
    refine Graph.wconn_mono ?_ (hconn u hu w hw)
    rintro ⟨a, b⟩ hab
    obtain ⟨n, hn, hnv, ha, hne⟩ := link_arrows.1 hab
    obtain ⟨p, hp, rfl⟩ := List.mem_map.1 hn
    by_cases h : p.1 = q.1
    · have : p = q := List.inj_on_of_nodup_map hnd' hp hq h
      subst this
      refine link_arrows.2 ⟨⟨cpdFactor (p.1, c), p.1⟩, List.mem_map.2 ⟨_, hmem, rfl⟩, hnv, ?_, hne⟩
      rcases List.mem_cons.1 ha with ha | ha
      · exact List.mem_cons.2 (Or.inl ha)
      · exact List.mem_cons_of_mem _ (hsub a ha)
    · refine link_arrows.2 ⟨⟨cpdFactor p, p.1⟩, List.mem_map.2 ⟨p, ?_, rfl⟩, hnv, ha, hne⟩
      rw [hcp]
      exact List.mem_map.2 ⟨p, hp, by rw [if_neg h]⟩
  obtain ⟨out, out', r, r', h1, h2, h3, h4, h5⟩ :=
    replace_no_effect hnd hf hi' hi hconn' hconn hmem hback hsub hx₀ hk hev hpos' hpos hy hyev hsep
  exact ⟨out', out, r', r, h2, h1, h4, h3, h5.symm⟩

/-- **C102**, two cases that are easy to check: the evidence d-separates `v` itself from `y`; or neither `y` nor the evidence is a
descendant of `v`. -/
theorem no_effect_cases {E : List (V × V)} {zs : List V} {v y : V}
    (h : DSeparated E (· ∈ zs) v y ∨
      (¬ Relation.ReflTransGen (EdgeRel E) v y ∧ ∀ z ∈ zs, ¬ Relation.ReflTransGen (EdgeRel E) v z)) : NoEffect E zs v y :=
  h.elim NoEffect.of_dsep fun h => NoEffect.of_nondescendants h.1 h.2

end

/-! ### Examples -/

/-- `do_no_effect` in `0 → 1 → 2`: if the state of 1 is known, what is set for 0 does not matter for 2. -/
example : ∃ e e' : Engine ℕ Bool ℚ, Reach exNd exChain e ∧ e.doIntervention 0 (.dist exDist) = (e', .ok ()) ∧
    ∃ out out' r r', e.query exNd [(1, true)] = .ok out ∧ e'.query exNd [(1, true)] = .ok out' ∧
      out.lookup 2 = some r ∧ out'.lookup 2 = some r' ∧ r.Perm r' := by
  obtain ⟨e, _, hr, hcp⟩ := ex_fresh exChain_fitted
  obtain ⟨e', h1, _, h3⟩ := ex_do exChain_fitted (fun _ => exChain_dom) hr (v := 0) (by rw [hcp]; decide)
  have hconn : Connected (netNodes e'.cpds) := by
    have hc := exChain_fitted.connected
    have h4 : (netNodes e'.cpds).map Node.var = (netNodes (cpdsOf exChain)).map Node.var := by rw [h3, hcp]; decide
    have h5 : arrows (netNodes e'.cpds) = arrows (netNodes (cpdsOf exChain)) := by rw [h3, hcp]; decide
    unfold Connected
    rw [h4, h5]
    exact hc
  refine ⟨e, e', hr, h1, do_no_effect exNd_legal exChain_fitted hr h1 hconn (x₀ := fun _ => true)
    (fun u hu => by rw [exChain_dom hu]; simp) (by decide) (by decide) ?_ ?_ (by decide) (by decide) ?_⟩
  · rw [hcp]
    decide +kernel
  · rw [h3, hcp]
    decide +kernel
  · rw [hcp]
    exact no_effect_cases (Or.inl exChain_dsep.symm)

/-- The evidence matters: in `0 → 1 → 2`, `0 → 2` setting 1 does not change what is reported for 0 without evidence, but it does
if 2, a descendant of 1, is observed: the probability of `0 = true` is 111/181 before and 9/16 after. -/
example : ∃ e e' : Engine ℕ Bool ℚ, Reach exNd exBn e ∧ e.doIntervention 1 (.dist exDist) = (e', .ok ()) ∧
    NoEffect (arrows (netNodes e.cpds)) [] 1 0 ∧
    massOf (domOf exBn) (netNodes e.cpds) (fun _ => true) (fun x => Agrees [(2, true)] x ∧ x 0 = true) /
      massOf (domOf exBn) (netNodes e.cpds) (fun _ => true) (Agrees [(2, true)]) = 111 / 181 ∧
    massOf (domOf exBn) (netNodes e'.cpds) (fun _ => true) (fun x => Agrees [(2, true)] x ∧ x 0 = true) /
      massOf (domOf exBn) (netNodes e'.cpds) (fun _ => true) (Agrees [(2, true)]) = 9 / 16 := by
  obtain ⟨e, _, hr, hcp⟩ := ex_fresh exBn_fitted
  obtain ⟨e', h1, _, h3⟩ := ex_do exBn_fitted (fun _ => exBn_dom) hr (v := 1) (by rw [hcp]; decide)
  refine ⟨e, e', hr, h1, ?_, ?_, ?_⟩
  · rw [hcp]
    refine no_effect_cases (Or.inr ⟨?_, by simp⟩)
    intro h
    have h0 : ∀ e ∈ arrows (netNodes (cpdsOf exBn)), e.1 < e.2 := by decide
    have : ∀ w, Relation.ReflTransGen (EdgeRel (arrows (netNodes (cpdsOf exBn)))) 1 w → 1 ≤ w := by
      intro w hw
      induction hw with
      | refl => exact le_rfl
      | tail _ h ih => exact ih.trans (h0 _ h).le
    exact absurd (this 0 h) (by decide)
  · rw [hcp]
    decide +kernel
  · rw [h3, hcp]
    decide +kernel

end Verif.BBN
