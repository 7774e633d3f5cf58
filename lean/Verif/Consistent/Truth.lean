import Verif.BBN.LocalMarkov
import Mathlib.Data.Real.Basic
import Mathlib.Algebra.Order.BigOperators.GroupWithZero.List

/-!
# Distributions given by a graph and conditional probabilities
-/

namespace Verif.Consistent

open Verif.BBN Function

section
set_option linter.unusedSectionVars false
variable {V S : Type} [LinearOrder V] [DecidableEq S]

/-- The probability of an assignment: the product of the conditional probabilities. -/
def truth (vs : List V) (par : V → List V) (Q : V → S → List S → ℝ) (x : V → S) : ℝ := (vs.map fun v => Q v (x v) ((par v).map x)).prod

/-- The variables `vs` with states `dom`, parents `par` and conditional probabilities `Q` form a Bayesian network. -/
structure IsModel (dom : V → List S) (vs : List V) (par : V → List V) (Q : V → S → List S → ℝ) : Prop where
  nodup : vs.Nodup
  states : ∀ v ∈ vs, (dom v).Nodup
  parents : ∀ v ∈ vs, ∀ p ∈ par v, p ∈ vs
  parents_nodup : ∀ v ∈ vs, (par v).Nodup
  acyclic : Graph.Acyclic (vs.flatMap fun v => (par v).map fun p => (p, v))
  nonneg : ∀ v ∈ vs, ∀ ps, List.Forall₂ (fun s p => s ∈ dom p) ps (par v) → ∀ s ∈ dom v, 0 ≤ Q v s ps
  sum : ∀ v ∈ vs, ∀ ps, List.Forall₂ (fun s p => s ∈ dom p) ps (par v) → ((dom v).map fun s => Q v s ps).sum = 1

/-- The same as nodes of the inference code. -/
def nodesOf (vs : List V) (par : V → List V) (Q : V → S → List S → ℝ) : List (Node V S ℝ) :=
  vs.map fun v => ⟨⟨v :: par v, fun l => match l with | s :: ps => Q v s ps | [] => 0⟩, v⟩

variable {dom : V → List S} {vs : List V} {par : V → List V} {Q : V → S → List S → ℝ}

theorem nodesOf_vars : (nodesOf vs par Q).map Node.var = vs := by
  rw [nodesOf, List.map_map]
  exact List.map_id _

theorem nodesOf_joint (x : V → S) : joint (nodesOf vs par Q) x = truth vs par Q x := by
  rw [joint, nodesOf, List.map_map]
  rfl

theorem mem_nodesOf {n : Node V S ℝ} : n ∈ nodesOf vs par Q ↔ ∃ v ∈ vs,
    n = ⟨⟨v :: par v, fun l => match l with | s :: ps => Q v s ps | [] => 0⟩, v⟩ := by
  rw [nodesOf, List.mem_map]
  exact ⟨fun ⟨v, h, e⟩ => ⟨v, h, e.symm⟩, fun ⟨v, h, e⟩ => ⟨v, h, e.symm⟩⟩

theorem massOf_nodesOf (x₀ : V → S) (A : (V → S) → Prop) [DecidablePred A] :
    massOf dom (nodesOf vs par Q) x₀ A = massWith dom vs (truth vs par Q) x₀ A := by
  rw [massOf, massWith, nodesOf_vars]
  congr 1
  exact List.map_congr_left fun x _ => nodesOf_joint x

namespace IsModel
variable (h : IsModel dom vs par Q)
include h

theorem notParent {v : V} (hv : v ∈ vs) : v ∉ par v := fun hp =>
  h.acyclic v (.single (List.mem_flatMap.2 ⟨v, hv, List.mem_map.2 ⟨v, hp, rfl⟩⟩))

theorem parent_ne {v p : V} (hv : v ∈ vs) (hp : p ∈ par v) : p ≠ v := fun e => h.notParent hv (e ▸ hp)

theorem wf : NodesWF (nodesOf vs par Q) := by
  refine ⟨by rw [nodesOf_vars]; exact h.nodup, ?_, ?_, ?_⟩
  · intro n hn
    obtain ⟨v, -, rfl⟩ := mem_nodesOf.1 hn
    exact List.mem_cons_self
  · intro n hn
    obtain ⟨v, hv, rfl⟩ := mem_nodesOf.1 hn
    exact List.nodup_cons.2 ⟨h.notParent hv, h.parents_nodup v hv⟩
  · intro n hn a ha
    obtain ⟨v, hv, rfl⟩ := mem_nodesOf.1 hn
    rw [nodesOf_vars]
    rcases List.mem_cons.1 ha with rfl | ha
    · exact hv
    · exact h.parents v hv a ha

theorem nodeParents {v : V} (hv : v ∈ vs) :
    (⟨⟨v :: par v, fun l => match l with | s :: ps => Q v s ps | [] => 0⟩, v⟩ : Node V S ℝ).parents = par v := by
  change (v :: par v).filter (· ≠ v) = _
  rw [List.filter_cons_of_neg (by simp), List.filter_eq_self]
  intro p hp
  have : p ≠ v := fun e => h.notParent hv (e ▸ hp)
  simpa using this

theorem arrows_eq : arrows (nodesOf vs par Q) = vs.flatMap fun v => (par v).map fun p => (p, v) := by
  rw [arrows, nodesOf, List.flatMap_map]
  refine List.flatMap_congr fun v hv => ?_
  rw [h.nodeParents hv]

theorem acyclic' : Graph.Acyclic (arrows (nodesOf vs par Q)) := by
  rw [h.arrows_eq]
  exact h.acyclic

theorem config {v : V} {x : V → S} (hx : ∀ p ∈ par v, x p ∈ dom p) :
    List.Forall₂ (fun s p => s ∈ dom p) ((par v).map x) (par v) := by
  rw [List.forall₂_map_left_iff, List.forall₂_same]
  exact hx

theorem nonneg' : NonNeg dom (nodesOf vs par Q) := by
  intro n hn x hx
  obtain ⟨v, hv, rfl⟩ := mem_nodesOf.1 hn
  exact h.nonneg v hv _ (h.config fun p hp => hx p (List.mem_cons_of_mem _ hp)) _ (hx v List.mem_cons_self)

theorem normalised' : Normalised dom (nodesOf vs par Q) := by
  intro n hn x hx
  obtain ⟨v, hv, rfl⟩ := mem_nodesOf.1 hn
  have hmap : ∀ s : S, (par v).map (update x v s) = (par v).map x := fun s => List.map_congr_left fun p hp =>
    update_of_ne (h.parent_ne hv hp) _ _
  have hc : List.Forall₂ (fun s p => s ∈ dom p) ((par v).map x) (par v) :=
    h.config fun p hp => hx p (List.mem_cons_of_mem _ hp) (h.parent_ne hv hp)
  rw [← h.sum v hv _ hc]
  congr 1
  refine List.map_congr_left fun s _ => ?_
  change Q v (update x v s v) ((par v).map (update x v s)) = _
  rw [hmap, update_self]

theorem states' : ∀ n ∈ nodesOf vs par Q, (dom n.var).Nodup := by
  intro n hn
  obtain ⟨v, hv, rfl⟩ := mem_nodesOf.1 hn
  exact h.states v hv

/-- Given its parents, a variable has the conditional probabilities of its table. -/
theorem conditional {v : V} (hv : v ∈ vs) {s : S} (hs : s ∈ dom v) {x₀ : V → S} (hx₀ : ∀ u ∈ vs, x₀ u ∈ dom u) (z : V → S) :
    massWith dom vs (truth vs par Q) x₀ (fun x => x v = s ∧ (par v).map x = (par v).map z) =
      Q v s ((par v).map z) * massWith dom vs (truth vs par Q) x₀ (fun x => (par v).map x = (par v).map z) := by
  let ev : List (V × S) := (par v).map fun p => (p, z p)
  have hev : ev.map Prod.fst = par v := by rw [List.map_map]; exact List.map_id _
  have hag : ∀ x, Agrees ev x ↔ (par v).map x = (par v).map z := by
    intro x
    rw [List.map_inj_left]
    constructor
    · exact fun hx p hp => hx (p, z p) (List.mem_map.2 ⟨p, hp, rfl⟩)
    · intro hx q hq
      obtain ⟨p, hp, rfl⟩ := List.mem_map.1 hq
      exact hx p hp
  have key := massOf_local h.wf h.acyclic' h.normalised' h.states' (n := ⟨⟨v :: par v, fun l => match l with | s :: ps => Q v s ps | [] => 0⟩, v⟩)
    (mem_nodesOf.2 ⟨v, hv, rfl⟩) (x₀ := x₀) (by rw [nodesOf_vars]; exact hx₀) (ev := ev)
    (by
      intro a ha hne
      rw [hev]
      rcases List.mem_cons.1 ha with rfl | ha
      · exact absurd rfl hne
      · exact ha)
    (by
      intro p hp hr
      rw [hev] at hp
      have hr' : Relation.ReflTransGen (Graph.EdgeRel (arrows (nodesOf vs par Q))) v p := hr
      refine h.acyclic' v (.tail' hr' ?_)
      rw [h.arrows_eq]
      exact List.mem_flatMap.2 ⟨v, hv, List.mem_map.2 ⟨p, hp, rfl⟩⟩)
    (z := z) ((hag z).2 rfl) hs
  rw [massOf_nodesOf, massOf_nodesOf] at key
  have hmap : (par v).map (update z v s) = (par v).map z := List.map_congr_left fun p hp =>
    update_of_ne (h.parent_ne hv hp) _ _
  change _ = Q v (update z v s v) ((par v).map (update z v s)) * _ at key
  rw [hmap, update_self] at key
  simp only [massWith] at key ⊢
  have e1 : ∀ x : V → S, decide (x v = s ∧ (par v).map x = (par v).map z) = decide (Agrees ev x ∧ x v = s) := fun x =>
    decide_eq_decide.2 (by rw [hag, and_comm])
  have e2 : ∀ x : V → S, decide ((par v).map x = (par v).map z) = decide (Agrees ev x) := fun x => decide_eq_decide.2 (hag x).symm
  simp only [e1, e2]
  exact key

/-- Every acyclic set of variables has, among those with a property, one such that its ancestors do not have it. -/
theorem exists_first (B : V → Prop) {v : V} (hv : v ∈ vs) (hB : B v) : ∃ w ∈ vs, B w ∧
    ∀ u ∈ vs, Relation.TransGen (Graph.EdgeRel (arrows (nodesOf vs par Q))) u w → ¬ B u := by
  classical
  let rank : V → ℕ := fun w => (vs.toFinset.filter fun u => Relation.TransGen (Graph.EdgeRel (arrows (nodesOf vs par Q))) u w).card
  obtain ⟨w, hw, hmin⟩ := Finset.exists_min_image (vs.toFinset.filter B) rank ⟨v, by simp [hv, hB]⟩
  rw [Finset.mem_filter, List.mem_toFinset] at hw
  refine ⟨w, hw.1, hw.2, fun u hu huw hBu => ?_⟩
  have h1 := hmin u (by simp [hu, hBu])
  have h2 : rank u < rank w := by
    refine Finset.card_lt_card ((Finset.ssubset_iff_of_subset ?_).2 ⟨u, ?_, ?_⟩)
    · intro t ht
      rw [Finset.mem_filter] at ht ⊢
      exact ⟨ht.1, ht.2.trans huw⟩
    · rw [Finset.mem_filter, List.mem_toFinset]
      exact ⟨hu, huw⟩
    · rw [Finset.mem_filter]
      exact fun ht => h.acyclic' u ht.2
  omega

/-- If the states of the parents of a variable are impossible then some conditional probability, for states of the parents that are
possible, is zero. -/
theorem impossible {σ : V → S} (hσ : ∀ u ∈ vs, σ u ∈ dom u) {v : V} (hv : v ∈ vs)
    (h0 : massWith dom vs (truth vs par Q) σ (fun x => (par v).map x = (par v).map σ) = 0) :
    ∃ u ∈ vs, 0 < massWith dom vs (truth vs par Q) σ (fun x => (par u).map x = (par u).map σ) ∧ Q u (σ u) ((par u).map σ) = 0 := by
  classical
  obtain ⟨dom', hdom, hd, hx⟩ := exists_total_dom h.states' (x₀ := σ) (by rw [nodesOf_vars]; exact hσ)
  rw [nodesOf_vars] at hdom
  have hcongr : ∀ (A : (V → S) → Prop) [DecidablePred A], massWith dom vs (truth vs par Q) σ A = massOf dom' (nodesOf vs par Q) σ A := by
    intro A _
    rw [massOf_dom_congr (by rw [nodesOf_vars]; exact hdom), massOf_nodesOf]
  have hnn : NonNeg dom' (nodesOf vs par Q) := by
    intro n hn x hx
    refine h.nonneg' n hn x fun a ha => ?_
    have := h.wf.args_sub n hn a ha
    rw [nodesOf_vars] at this
    rw [← hdom a this]
    exact hx a ha
  have hnorm : Normalised dom' (nodesOf vs par Q) := by
    intro n hn x hx
    have hv := List.mem_map_of_mem (f := Node.var) hn
    rw [nodesOf_vars] at hv
    rw [hdom _ hv]
    refine h.normalised' n hn x fun a ha hne => ?_
    have := h.wf.args_sub n hn a ha
    rw [nodesOf_vars] at this
    rw [← hdom a this]
    exact hx a ha hne
  obtain ⟨w, hw, hw0, hmin⟩ := h.exists_first
    (fun v => massWith dom vs (truth vs par Q) σ (fun x => (par v).map x = (par v).map σ) = 0) hv h0
  by_contra hcon
  push Not at hcon
  -- the ancestors of `w`
  let A : V → Prop := fun u => Relation.TransGen (Graph.EdgeRel (arrows (nodesOf vs par Q))) u w
  have hcl : ∀ n ∈ nodesOf vs par Q, A n.var → ∀ a ∈ n.args, A a := by
    intro n hn hA a ha
    obtain ⟨u, hu, rfl⟩ := mem_nodesOf.1 hn
    rcases List.mem_cons.1 ha with rfl | ha
    · exact hA
    · refine .head ?_ hA
      rw [h.arrows_eq]
      exact List.mem_flatMap.2 ⟨u, hu, List.mem_map.2 ⟨a, ha, rfl⟩⟩
  have hpos : ∀ u ∈ vs, A u → 0 < Q u (σ u) ((par u).map σ) := by
    intro u hu hA
    have h1 := hmin u hu hA
    have h2 : 0 < massWith dom vs (truth vs par Q) σ (fun x => (par u).map x = (par u).map σ) :=
      lt_of_le_of_ne (by rw [hcongr]; exact massOf_nonneg hnn hx _) (Ne.symm h1)
    exact lt_of_le_of_ne (h.nonneg u hu _ (h.config fun p hp => hσ p (h.parents u hu p hp)) _ (hσ u hu)) (Ne.symm (hcon u hu h2))
  let L := (nodesOf vs par Q).filter fun n => A n.var
  have hLv : ∀ n ∈ L, n ∈ nodesOf vs par Q ∧ A n.var := by
    intro n hn
    have := List.mem_filter.1 hn
    exact ⟨this.1, by simpa using this.2⟩
  have hwL : NodesWF L := by
    refine ⟨h.wf.nodup.sublist (List.filter_sublist.map _), fun n hn => h.wf.var_mem n (hLv n hn).1, fun n hn => h.wf.args_nodup n (hLv n hn).1, ?_⟩
    intro n hn a ha
    have hA := hcl n (hLv n hn).1 (hLv n hn).2 a ha
    obtain ⟨m, hm, rfl⟩ := List.mem_map.1 (h.wf.args_sub n (hLv n hn).1 a ha)
    exact List.mem_map_of_mem (List.mem_filter.2 ⟨hm, by simpa using hA⟩)
  have h1 : massOf dom' (nodesOf vs par Q) σ (fun x => ∀ u ∈ L.map Node.var, x u = σ u) = joint L σ := by
    rw [massOf_ancestral h.wf h.acyclic' (fun n _ => hd _) hnorm (fun v _ => hx v) A hcl _ (by
      intro x y hxy
      refine forall_congr' fun u => forall_congr' fun hu => ?_
      obtain ⟨n, hn, rfl⟩ := List.mem_map.1 hu
      rw [hxy _ (hLv n hn).2])]
    exact massOf_single hwL (fun n _ => hd _) (fun v _ => hx v) σ
  have h2 : 0 < joint L σ := by
    refine List.prod_pos fun q hq => ?_
    obtain ⟨n, hn, rfl⟩ := List.mem_map.1 hq
    obtain ⟨hn1, hn2⟩ := hLv n hn
    obtain ⟨u, hu, rfl⟩ := mem_nodesOf.1 hn1
    exact hpos u hu hn2
  have h3 : massOf dom' (nodesOf vs par Q) σ (fun x => ∀ u ∈ L.map Node.var, x u = σ u) ≤
      massOf dom' (nodesOf vs par Q) σ (fun x => (par w).map x = (par w).map σ) := by
    refine massOf_mono hnn hx fun x hxx => List.map_congr_left fun p hp => hxx p ?_
    refine List.mem_map.2 ⟨_, List.mem_filter.2 ⟨mem_nodesOf.2 ⟨p, h.parents w hw p hp, rfl⟩, ?_⟩, rfl⟩
    have : A p := .single (by
      rw [h.arrows_eq]
      exact List.mem_flatMap.2 ⟨w, hw, List.mem_map.2 ⟨p, hp, rfl⟩⟩)
    simpa using this
  rw [hcongr] at hw0
  rw [hw0, h1] at h3
  linarith

end IsModel

end

end Verif.Consistent
