import Verif.BBN.PropsAct

/-!
# The local Markov property: given its parents, a variable depends on its descendants only
-/

namespace Verif.BBN
open Function Graph

section
variable {V S K : Type} [LinearOrder V] [DecidableEq S] [Field K] [LinearOrder K] [IsStrictOrderedRing K] {dom : V → List S}

/-- The probability of a state of `v`, given evidence on all parents of `v` and on no descendant of it, is the entry of the table. -/
theorem massOf_local {nodes : List (Node V S K)} (hw : NodesWF nodes) (hac : Acyclic (arrows nodes)) (hn : Normalised dom nodes)
    (hdn : ∀ n ∈ nodes, (dom n.var).Nodup) {n : Node V S K} (hnn : n ∈ nodes) {x₀ : V → S} (hx₀ : ∀ u ∈ nodes.map Node.var, x₀ u ∈ dom u)
    {ev : List (V × S)} (hpar : ∀ a ∈ n.args, a ≠ n.var → a ∈ ev.map Prod.fst)
    (hdesc : ∀ z ∈ ev.map Prod.fst, ¬ Relation.ReflTransGen (EdgeRel (arrows nodes)) n.var z)
    {z : V → S} (hz : Agrees ev z) {s : S} (hs : s ∈ dom n.var) :
    massOf dom nodes x₀ (fun x => Agrees ev x ∧ x n.var = s) =
      n.fn (n.args.map (update z n.var s)) * massOf dom nodes x₀ (Agrees ev) := by
  classical
  obtain ⟨dom', hcongr, hd, hx⟩ := exists_total_dom hdn hx₀
  have hn1 : Normalised dom' nodes := by
    intro m hm x hx'
    rw [hcongr _ (List.mem_map_of_mem hm)]
    exact hn m hm x fun a ha hav => by
      rw [← hcongr a (hw.args_sub m hm a ha)]; exact hx' a ha hav
  simp only [← massOf_dom_congr hcongr]
  have hs' : s ∈ dom' n.var := by rw [hcongr _ (List.mem_map_of_mem hnn)]; exact hs
  set P : V → Prop := fun u => ∃ w, (w = n.var ∨ w ∈ ev.map Prod.fst) ∧ Relation.ReflTransGen (EdgeRel (arrows nodes)) u w with hP
  have hPcl : ∀ m ∈ nodes, P m.var → ∀ a ∈ m.args, P a := by
    rintro m hm ⟨w, hw, hr⟩ a ha
    by_cases h : a = m.var
    · exact ⟨w, hw, h ▸ hr⟩
    · exact ⟨w, hw, hr.head (link_arrows.2 ⟨m, hm, rfl, ha, h⟩)⟩
  have hPself : ∀ u, (u = n.var ∨ u ∈ ev.map Prod.fst) → P u := fun u hu => ⟨u, hu, .refl⟩
  have hvev : n.var ∉ ev.map Prod.fst := fun h => hdesc _ h .refl
  have hag : ∀ x y : V → S, (∀ v, P v → x v = y v) → (Agrees ev x ↔ Agrees ev y) := by
    intro x y h
    have : ∀ p ∈ ev, x p.1 = y p.1 := fun p hp => h _ (hPself _ (Or.inr (List.mem_map_of_mem hp)))
    constructor
    · intro h' p hp
      rw [← this p hp]
      exact h' p hp
    · intro h' p hp
      rw [this p hp]
      exact h' p hp
  have hdn' : ∀ m ∈ nodes, (dom' m.var).Nodup := fun m _ => hd _
  have hxv : ∀ v ∈ nodes.map Node.var, x₀ v ∈ dom' v := fun v _ => hx v
  rw [massOf_ancestral hw hac hdn' hn1 hxv P hPcl (fun x => Agrees ev x ∧ x n.var = s) (by
      intro x y h
      rw [hag x y h, h _ (hPself _ (Or.inl rfl))]),
    massOf_ancestral hw hac hdn' hn1 hxv P hPcl (Agrees ev) hag]
  set L := nodes.filter fun n => P n.var with hL
  have hLnd : (L.map Node.var).Nodup := hw.nodup.sublist (List.filter_sublist.map _)
  have hnL : n ∈ L := List.mem_filter.2 ⟨hnn, decide_eq_true (hPself _ (Or.inl rfl))⟩
  have hrest : ∀ (y : V → S) (t : S), restOf L n.var (update y n.var t) = restOf L n.var y := by
    intro y t
    unfold restOf
    congr 1
    apply List.map_congr_left
    intro m hm
    obtain ⟨hm1, hm2⟩ := List.mem_filter.1 hm
    obtain ⟨hm3, hm4⟩ := List.mem_filter.1 hm1
    have hmv : m.var ≠ n.var := of_decide_eq_true hm2
    congr 1
    apply List.map_congr_left
    intro a ha
    rw [update_of_ne]
    rintro rfl
    have hedge : EdgeRel (arrows nodes) n.var m.var := link_arrows.2 ⟨m, hm3, rfl, ha, fun h => hmv h.symm⟩
    obtain ⟨w, hw', hr⟩ := of_decide_eq_true hm4
    rcases hw' with rfl | hw'
    · exact hac n.var (Relation.TransGen.head' hedge hr)
    · exact hdesc w hw' (hr.head hedge)
  have hagu : ∀ (y : V → S) (t : S), Agrees ev (update y n.var t) ↔ Agrees ev y := fun y t => agrees_update hvev y t
  rw [massOf_eq_sumOver, massOf_eq_sumOver, sumOver_perm dom' (perm_cons_filter hLnd (List.mem_map_of_mem hnL)), sumOver_append,
    sumOver_perm dom' (perm_cons_filter hLnd (List.mem_map_of_mem hnL)), sumOver_append]
  set c := n.fn (n.args.map (update z n.var s)) with hc
  have h1 : ∀ y, sumOver dom' [n.var] (fun x => if Agrees ev x ∧ x n.var = s then joint L x else 0) y =
      c * if Agrees ev y then restOf L n.var y else 0 := by
    intro y
    simp only [sumOver, hagu, update_self]
    by_cases hy : Agrees ev y
    · have hterm : ∀ t, (if Agrees ev y ∧ t = s then joint L (update y n.var t) else 0) = if t = s then c * restOf L n.var y else 0 := by
        intro t
        by_cases ht : t = s
        · subst ht
          rw [if_pos ⟨hy, rfl⟩, if_pos rfl, joint_rest hLnd hnL, hrest, hc]
          congr 2
          apply List.map_congr_left
          intro a ha
          by_cases hav : a = n.var
          · rw [hav, update_self, update_self]
          · rw [update_of_ne hav, update_of_ne hav]
            obtain ⟨p, hp, rfl⟩ := List.mem_map.1 (hpar a ha hav)
            rw [hy p hp, hz p hp]
        · rw [if_neg fun h => ht h.2, if_neg ht]
      simp only [hterm]
      rw [← sum_finset_list (hd _), Finset.sum_ite_eq', if_pos (List.mem_toFinset.2 hs'), if_pos hy]
    · simp [hy]
  have h2 : ∀ y, Valid dom' y → sumOver dom' [n.var] (fun x => if Agrees ev x then joint L x else 0) y =
      if Agrees ev y then restOf L n.var y else 0 := by
    intro y hy'
    simp only [sumOver, hagu]
    by_cases hy : Agrees ev y
    · simp only [if_pos hy, joint_rest hLnd hnL, hrest]
      rw [List.sum_map_mul_right, hn1 n hnn y fun a ha _ => hy' a, one_mul]
    · simp [hy]
  rw [sumOver_congr dom' h1, sumOver_congr_valid dom' h2 hx]
  rw [sumOver_mul_left dom' (g := fun _ => c) (A := ∅) (fun _ _ _ => rfl) (by simp)]

/-- **C105.** Let `e` be an engine built from a fitted network, after any history of interventions, resets and queries, whose current
graph is in one piece.  If the evidence is possible, gives a state to every parent of `v` and none to `v` or a descendant of it, then the
query reports for `v` the current table of `v` (that of the network, or the one of the last intervention on `v`) at the states of
the parents. -/
theorem query_local {nd : Nondet V} (hnd : nd.Legal) {bn : List (V × Frame V S K)} (hf : Fitted bn) {e : Engine V S K} (hi : e.Inv bn)
    (hconn : Connected (netNodes e.cpds)) {x₀ : V → S} (hx₀ : ∀ u ∈ bn.map Prod.fst, x₀ u ∈ domOf bn u)
    {ev : List (V × S)} (hk : (ev.map Prod.fst).Nodup) (hev : ∀ p ∈ ev, p.1 ∈ bn.map Prod.fst ∧ p.2 ∈ domOf bn p.1)
    (hpos : 0 < massOf (domOf bn) (netNodes e.cpds) x₀ (Agrees ev)) {v : V} {c : Cpd V S K} (hc : (v, c) ∈ e.cpds)
    (hpar : ∀ p ∈ c.parents, p ∈ ev.map Prod.fst)
    (hdesc : ∀ z ∈ ev.map Prod.fst, ¬ Relation.ReflTransGen (EdgeRel (arrows (netNodes e.cpds))) v z)
    {z : V → S} (hz : Agrees ev z) :
    ∃ out, e.query nd ev = .ok out ∧ ∀ s ∈ domOf bn v, Gives out v s (c.p s (c.parents.map z)) := by
  have hN := hi.network hf hconn
  have hgood : GoodEvidence e.dom (netNodes e.cpds) ev := by
    intro p hp
    rw [netNodes_vars, hi.vars, hi.dom_eq]
    exact hev p hp
  rw [← hi.dom_eq] at hpos
  have hx : ∀ u ∈ e.cpds.map Prod.fst, x₀ u ∈ e.dom u := by
    rw [hi.vars, hi.dom_eq]; exact hx₀
  obtain ⟨out, h1, h2⟩ := hi.query_reports hnd hf hconn hx hk hgood hpos
  refine ⟨out, h1, ?_⟩
  intro s hs
  rw [← hi.dom_eq] at hs
  have hg := h2.gives (List.mem_map_of_mem hc) hs
  have hm : (⟨cpdFactor (v, c), v⟩ : Node V S K) ∈ netNodes e.cpds :=
    List.mem_map_of_mem (f := fun q : V × Cpd V S K => (⟨cpdFactor q, q.1⟩ : Node V S K)) hc
  have hvz : v ∉ ev.map Prod.fst := fun h => hdesc _ h .refl
  have := massOf_local hN.wf hN.acyclic hN.normalised hN.states_nodup hm (x₀ := x₀) (by rw [netNodes_vars]; exact hx)
    (ev := ev) (by
      intro a ha hav
      rcases List.mem_cons.1 ha with ha | ha
      · exact absurd ha hav
      · exact hpar a ha) hdesc hz (s := s) hs
  dsimp only at this hg
  rw [this, mul_div_assoc, div_self hpos.ne', mul_one] at hg
  have hfn : (cpdFactor (v, c)).fn ((cpdFactor (v, c)).args.map (update z v s)) = c.p s (c.parents.map z) := by
    change c.p (update z v s v) (c.parents.map (update z v s)) = _
    rw [update_self]
    congr 1
    apply List.map_congr_left
    intro a ha
    rw [update_of_ne]
    rintro rfl
    exact hvz (hpar _ ha)
  rw [hfn] at hg
  exact hg

end

end Verif.BBN
