import Verif.BBN.Triangulate
import Verif.BBN.Spec
import Mathlib.Algebra.BigOperators.Group.List.Lemmas

/-!
# From the network to the answer of a query
-/

namespace Verif.BBN
open Verif.Graph (Link WConn wconn_of_mem wconn_mono wconn_lift wconn_cons nc)
open Function

section Moral
variable {V S K : Type} [LinearOrder V]

theorem connectAll_nbr (l : List (V × V)) (g : UG V) (u w : V) :
    (w ∈ (l.foldl (fun g p => g.connect p.1 p.2) g).nbr u ↔
      w ∈ g.nbr u ∨ (u, w) ∈ l ∨ (w, u) ∈ l) ∧
    (l.foldl (fun g p => g.connect p.1 p.2) g).nodes = g.nodes := by
  induction l generalizing g with
  | nil => simp
  | cons p l ih =>
    rw [List.foldl_cons]
    refine ⟨?_, (ih _).2⟩
    rw [(ih _).1]
    simp only [UG.connect, Finset.mem_union, List.mem_cons]
    have h1 : (w ∈ if u = p.1 then ({p.2} : Finset V) else ∅) ↔ (u, w) = p := by
      split
      · rename_i h
        rw [Finset.mem_singleton, Prod.ext_iff]
        simp [h]
      · rename_i h
        simp only [Finset.notMem_empty, false_iff, Prod.ext_iff, not_and]
        exact fun h' => absurd h' h
    have h2 : (w ∈ if u = p.2 then ({p.1} : Finset V) else ∅) ↔ (w, u) = p := by
      split
      · rename_i h
        rw [Finset.mem_singleton, Prod.ext_iff]
        simp [h]
      · rename_i h
        simp only [Finset.notMem_empty, false_iff, Prod.ext_iff, not_and]
        exact fun _ h' => absurd h' h
    rw [h1, h2]
    tauto

theorem foldl_flatMap {α β γ : Type} (f : γ → β → γ) (h : α → List β) (l : List α) (g : γ) :
    l.foldl (fun g a => (h a).foldl f g) g = (l.flatMap h).foldl f g := by
  induction l generalizing g with
  | nil => rfl
  | cons a l ih => simp [List.flatMap_cons, List.foldl_append, ih]

theorem undirectedCopy_eq (nodes : List (Node V S K)) :
    undirectedCopy nodes = (nodes.flatMap fun n => n.parents.map fun p => (n.var, p)).foldl
      (fun g p => g.connect p.1 p.2) ⟨nodes.map Node.var, fun _ => ∅⟩ := by
  rw [← foldl_flatMap]
  unfold undirectedCopy
  congr 1
  funext g n
  rw [List.foldl_map]

theorem moralizedCopy_eq (gu : UG V) (nodes : List (Node V S K)) :
    moralizedCopy gu nodes = (nodes.flatMap fun n => combos2 n.parents).foldl
      (fun g p => g.connect p.1 p.2) gu := by
  rw [← foldl_flatMap]
  rfl

theorem combos2_ne {α : Type} {l : List α} (hl : l.Nodup) {a b : α} (h : (a, b) ∈ combos2 l) :
    a ≠ b := by
  induction l with
  | nil => simp [combos2] at h
  | cons x l ih =>
    rw [List.nodup_cons] at hl
    simp only [combos2, List.mem_append, List.mem_map, Prod.mk.injEq] at h
    rcases h with ⟨c, hc, rfl, rfl⟩ | h
    · rintro rfl
      exact hl.1 hc
    · exact ih hl.2 h

/-- The moral graph of the network. -/
def moral (nodes : List (Node V S K)) : UG V := moralizedCopy (undirectedCopy nodes) nodes

theorem moral_nodes (nodes : List (Node V S K)) : (moral nodes).nodes = nodes.map Node.var := by
  rcases nodes with _ | ⟨n, l⟩
  · rfl
  · unfold moral
    rw [moralizedCopy_eq, (connectAll_nbr _ _ n.var n.var).2, undirectedCopy_eq,
      (connectAll_nbr _ _ n.var n.var).2]

/-- Two variables are adjacent in the moral graph exactly when they share a family. -/
theorem moral_nbr {nodes : List (Node V S K)} (h : NodesWF nodes) (u w : V) :
    w ∈ (moral nodes).nbr u ↔ w ≠ u ∧ ∃ n ∈ nodes, u ∈ n.args ∧ w ∈ n.args := by
  unfold moral
  rw [moralizedCopy_eq, (connectAll_nbr _ _ u w).1, undirectedCopy_eq, (connectAll_nbr _ _ u w).1]
  have hpar : ∀ n : Node V S K, ∀ a, a ∈ n.parents ↔ a ∈ n.args ∧ a ≠ n.var := by
    intro n a
    simp [Node.parents, List.mem_filter]
  have h1 : ∀ a b, (a, b) ∈ (nodes.flatMap fun n => n.parents.map fun p => (n.var, p)) ↔
      ∃ n ∈ nodes, a = n.var ∧ b ∈ n.args ∧ b ≠ a := by
    intro a b
    simp only [List.mem_flatMap, List.mem_map, Prod.mk.injEq, hpar]
    constructor
    · rintro ⟨n, hn, p, ⟨hp, hpv⟩, rfl, rfl⟩
      exact ⟨n, hn, rfl, hp, hpv⟩
    · rintro ⟨n, hn, rfl, hb, hbv⟩
      exact ⟨n, hn, b, ⟨hb, hbv⟩, rfl, rfl⟩
  rw [h1, h1]
  constructor
  · rintro ((hc | ⟨n, hn, rfl, hw, hne⟩ | ⟨n, hn, rfl, hu, hne⟩) | hc | hc)
    · simp at hc
    · exact ⟨hne, n, hn, h.var_mem n hn, hw⟩
    · exact ⟨hne.symm, n, hn, hu, h.var_mem n hn⟩
    · obtain ⟨n, hn, hc⟩ := List.mem_flatMap.1 hc
      have hm := mem_combos2 hc
      have hne := combos2_ne (by
        unfold Node.parents
        exact (h.args_nodup n hn).filter _) hc
      rw [hpar, hpar] at hm
      exact ⟨hne.symm, n, hn, hm.1.1, hm.2.1⟩
    · obtain ⟨n, hn, hc⟩ := List.mem_flatMap.1 hc
      have hm := mem_combos2 hc
      have hne := combos2_ne (by
        unfold Node.parents
        exact (h.args_nodup n hn).filter _) hc
      rw [hpar, hpar] at hm
      exact ⟨hne, n, hn, hm.2.1, hm.1.1⟩
  · rintro ⟨hne, n, hn, hu, hw⟩
    by_cases huv : u = n.var
    · exact Or.inl (Or.inr (Or.inl ⟨n, hn, huv, hw, hne⟩))
    · by_cases hwv : w = n.var
      · exact Or.inl (Or.inr (Or.inr ⟨n, hn, hwv, hu, hne.symm⟩))
      · right
        have := combos2_complete (l := n.parents) ((hpar n u).2 ⟨hu, huv⟩)
          ((hpar n w).2 ⟨hw, hwv⟩) hne.symm
        rcases this with h | h
        · exact Or.inl (List.mem_flatMap.2 ⟨n, hn, h⟩)
        · exact Or.inr (List.mem_flatMap.2 ⟨n, hn, h⟩)

theorem moral_wf {nodes : List (Node V S K)} (h : NodesWF nodes) : (moral nodes).WF where
  nodup := by rw [moral_nodes]; exact h.nodup
  sub := by
    intro v _ u hu
    rw [moral_nbr h] at hu
    obtain ⟨_, n, hn, _, hu⟩ := hu
    rw [moral_nodes]
    exact h.args_sub n hn u hu
  symm := by
    intro v _ u _ hu
    rw [moral_nbr h] at hu ⊢
    obtain ⟨hne, n, hn, h1, h2⟩ := hu
    exact ⟨hne.symm, n, hn, h2, h1⟩
  irrefl := by
    intro v _ hv
    rw [moral_nbr h] at hv
    exact hv.1 rfl

theorem link_arrows {nodes : List (Node V S K)} {u w : V} :
    (u, w) ∈ arrows nodes ↔ ∃ n ∈ nodes, n.var = w ∧ u ∈ n.args ∧ u ≠ w := by
  unfold arrows
  simp only [List.mem_flatMap, List.mem_map, Prod.mk.injEq, Node.parents, List.mem_filter,
    decide_eq_true_eq]
  constructor
  · rintro ⟨n, hn, p, ⟨hp, hpv⟩, rfl, rfl⟩
    exact ⟨n, hn, rfl, hp, hpv⟩
  · rintro ⟨n, hn, rfl, hb, hbv⟩
    exact ⟨n, hn, u, ⟨hb, hbv⟩, rfl, rfl⟩

theorem moral_reach {nodes : List (Node V S K)} (h : NodesWF nodes) (u w : V) :
    (moral nodes).Reach u w ↔ WConn (arrows nodes) u w := by
  constructor
  · intro hr
    induction hr with
    | refl => exact .refl
    | @tail y z _ hl ih =>
      rw [moral_nbr h] at hl
      obtain ⟨hne, n, hn, hy, hz⟩ := hl
      have hto : ∀ a ∈ n.args, WConn (arrows nodes) a n.var := by
        intro a ha
        by_cases hav : a = n.var
        · rw [hav]; exact .refl
        · exact wconn_of_mem (link_arrows.2 ⟨n, hn, rfl, ha, hav⟩)
      exact (ih.trans (hto y hy)).trans (hto z hz).symm
  · intro hr
    induction hr with
    | refl => exact .refl
    | @tail y z _ hl ih =>
      refine ih.tail ((moral_nbr h _ _).2 ?_)
      rcases hl with hl | hl
      · obtain ⟨n, hn, rfl, hy, hne⟩ := link_arrows.1 hl
        exact ⟨hne.symm, n, hn, hy, h.var_mem n hn⟩
      · obtain ⟨n, hn, rfl, hy, hne⟩ := link_arrows.1 hl
        exact ⟨hne, n, hn, h.var_mem n hn, hy⟩

/-- What the join tree of a network looks like. -/
theorem buildJoinTree_ok_iff {nd : Nondet V} (hnd : nd.Legal) {nodes : List (Node V S K)}
    (h : NodesWF nodes) :
    (∃ jt, buildJoinTree nd nodes = .ok jt) ↔ nodes ≠ [] ∧ Connected nodes := by
  obtain ⟨L, hL, _, hc, _, _⟩ := triangulate_elim priorityFunc (moral_wf h)
  have hb : buildJoinTree nd nodes = joinTreeOf nd (recorded L) := by
    unfold buildJoinTree
    rw [← hc]; rfl
  rw [hb, joinTreeOf_ok_iff hnd]
  have hempty : recorded L ≠ [] ↔ nodes ≠ [] := by
    have hp := hL.perm.length_eq
    rw [moral_nodes] at hp
    simp only [List.length_map] at hp
    cases L with
    | nil =>
      simp only [List.length_nil] at hp
      simp [recorded, maxi, List.length_eq_zero_iff.1 hp.symm]
    | cons p L =>
      simp only [recorded, List.map_cons, maxi, ne_eq, reduceCtorEq, not_false_eq_true, true_iff]
      rintro rfl
      simp at hp
  constructor
  · rintro ⟨h1, h2⟩
    refine ⟨hempty.1 h1, ?_⟩
    intro u hu w hw
    rw [← moral_reach h]
    rw [← moral_nodes nodes] at hu hw
    exact hL.connected_of_cliques (moral_wf h) h2 u hu w hw
  · rintro ⟨h1, h2⟩
    refine ⟨hempty.2 h1, fun i j hi hj => ?_⟩
    refine hL.cliques_connected (moral_wf h) (fun u hu w hw => ?_) hi hj
    rw [moral_nodes] at hu hw
    exact (moral_reach h u w).2 (h2 u hu w hw)

structure TreeFacts (nodes : List (Node V S K)) (jt : JT V) : Prop where
  junction : IsJunctionTree jt
  family : ∀ n ∈ nodes, ∃ i, i < jt.cliques.length ∧ n.args.toFinset ⊆ clq jt.cliques i
  vars : ∀ i, ∀ v ∈ clq jt.cliques i, v ∈ nodes.map Node.var
  antichain : ∀ i j, i < jt.cliques.length → j < jt.cliques.length →
    clq jt.cliques i ⊆ clq jt.cliques j → i = j

theorem buildJoinTree_facts {nd : Nondet V} (hnd : nd.Legal) {nodes : List (Node V S K)}
    (h : NodesWF nodes) {jt : JT V} (hjt : buildJoinTree nd nodes = .ok jt) :
    TreeFacts nodes jt := by
  obtain ⟨L, hL, _, hc, _, _⟩ := triangulate_elim priorityFunc (moral_wf h)
  have hb : buildJoinTree nd nodes = joinTreeOf nd (recorded L) := by
    unfold buildJoinTree
    rw [← hc]; rfl
  rw [hb] at hjt
  obtain ⟨J, hJ, hJr, hJv⟩ := hL.exists_index_forest (moral_wf h)
  obtain ⟨hcl, hj⟩ := joinTreeOf_junction hnd hjt hJ hJr hJv
  refine ⟨hj, ?_, ?_, ?_⟩
  · intro n hn
    obtain ⟨p, hp, hQ⟩ := hL.clique (moral_wf h) (Q := n.args.toFinset)
      ⟨n.var, by simpa using h.var_mem n hn⟩
      (by
        intro u hu
        rw [moral_nodes]
        exact h.args_sub n hn u (by simpa using hu))
      (by
        intro u hu w hw huw
        rw [moral_nbr h]
        exact ⟨huw.symm, n, hn, by simpa using hu, by simpa using hw⟩)
    obtain ⟨d, hd, hpd⟩ := maxi_covers (List.mem_map_of_mem (f := Prod.snd) hp)
    have hd' : d ∈ recorded L := hd
    refine ⟨(recorded L).idxOf d, ?_, ?_⟩
    · rw [hcl]; exact List.idxOf_lt_length_of_mem hd'
    · rw [hcl, clq_idxOf hd']; exact hQ.trans hpd
  · intro i v hv
    rw [hcl] at hv
    obtain ⟨p, hp, hpi⟩ := List.mem_map.1 (maxi_subset _ (clq_mem (clq_lt hv)))
    rw [show clq (recorded L) i = p.2 from hpi.symm] at hv
    rw [← moral_nodes nodes]
    exact hL.sub (moral_wf h) p hp v hv
  · intro i j hi hj' hsub
    rw [hcl] at hi hj' hsub
    have heq := hL.antichain (moral_wf h) _ (clq_mem hi) _ (clq_mem hj') hsub
    have hnd' : (recorded L).Nodup := maxi_nodup
    unfold clq at heq
    rw [List.getD_eq_getElem?_getD, List.getElem?_eq_getElem hi, List.getD_eq_getElem?_getD,
      List.getElem?_eq_getElem hj'] at heq
    exact (hnd'.getElem_inj_iff).1 (by simpa using heq)

end Moral

section Neighbours

theorem mem_neighbours (E : List (ℕ × ℕ)) (i j : ℕ) : j ∈ neighbours E i ↔ Link E i j := by
  unfold neighbours
  rw [List.mem_filterMap]
  constructor
  · rintro ⟨e, he, h⟩
    split at h
    · rename_i h1
      cases h
      exact Or.inl (by rw [← h1]; exact he)
    · split at h
      · rename_i h2
        cases h
        exact Or.inr (by rw [← h2]; exact he)
      · cases h
  · rintro (h | h)
    · exact ⟨_, h, by simp⟩
    · by_cases hji : j = i
      · exact ⟨_, h, by simp [hji]⟩
      · exact ⟨_, h, by simp [hji]⟩

theorem neighbours_nodup {E : List (ℕ × ℕ)} (hE : Graph.Forest E) (i : ℕ) :
    (neighbours E i).Nodup := by
  induction E with
  | nil => simp [neighbours]
  | cons e E ih =>
    have := ih hE.2
    have hw := hE.1
    have hcons : neighbours (e :: E) i =
        (match (if e.1 = i then some e.2 else if e.2 = i then some e.1 else none) with
          | some b => b :: neighbours E i
          | none => neighbours E i) := by
      unfold neighbours
      rw [List.filterMap_cons]
      split <;> rename_i h <;> simp [h]
    rw [hcons]
    by_cases h1 : e.1 = i
    · simp only [h1, if_true]
      refine List.nodup_cons.2 ⟨fun hm => hw ?_, this⟩
      rw [h1]
      exact Relation.ReflTransGen.single ((mem_neighbours E i e.2).1 hm)
    · by_cases h2 : e.2 = i
      · simp only [h1, h2, if_true, if_false]
        refine List.nodup_cons.2 ⟨fun hm => hw ?_, this⟩
        rw [h2]
        exact Graph.WConn.symm (Relation.ReflTransGen.single ((mem_neighbours E i e.1).1 hm))
      · simp only [h1, h2, if_false]
        exact this

end Neighbours

section Calibrate
variable {V S K : Type} [LinearOrder V] [DecidableEq S]
variable [Field K] [LinearOrder K] [IsStrictOrderedRing K]

omit [LinearOrder V] [DecidableEq S] [LinearOrder K] [IsStrictOrderedRing K] in
theorem RF.prodF_eq (φ : ℕ → (V → S) → K) (f : RF) (x : V → S) :
    f.prodF φ x = (f.labels.map fun i => φ i x).prod := by
  induction f with
  | nil => simp [RF.prodF, RF.labels]
  | cons i kids sibs ihk ihs => simp [RF.prodF, RF.labels, ihk, ihs, mul_assoc]

/-- All variables of the cliques. -/
def allVars (cl : List (Finset V)) : Finset V := (Finset.range cl.length).biUnion (clq cl)

/-- Propagation on a junction tree, from any clique and for any order of visiting neighbours:
every clique ends up with the marginal of the product of all potentials. -/
theorem propagate_junction {dom : V → List S} (hd : ∀ v, (dom v).Nodup) {x₀ : V → S}
    (hx₀ : Valid dom x₀) {jt : JT V} (hjt : IsJunctionTree jt) {ord : ℕ → List ℕ}
    (hord : ∀ i, (ord i).Perm (neighbours jt.edges i)) {φ : ℕ → (V → S) → K}
    (hφ : ∀ i, DependsOn (φ i) (clq jt.cliques i : Set V))
    (hpos : ∀ i x, Valid dom x → 0 ≤ φ i x) {start : ℕ} (hs : start < jt.cliques.length)
    {st : PState V S K}
    (hst : ∀ i, i < jt.cliques.length → CRep dom jt st i (φ i))
    (hsp : ∀ e, SRep dom jt st e (fun _ => 1)) :
    ∃ st', propagate jt ord start st = .ok st' ∧
      ∀ i, i < jt.cliques.length → CRep dom jt st' i
        (sumF dom (allVars jt.cliques \ clq jt.cliques i)
          (fun x => ((List.range jt.cliques.length).map fun j => φ j x).prod)) := by
  have hE := hjt.forest
  obtain ⟨f, hfr, hff, hfg, hfn, hfl⟩ := exists_rf hjt (ord := ord)
    (fun i => (hord i).nodup_iff.2 (neighbours_nodup hE i))
    (fun i j => by rw [(hord i).mem_iff, mem_neighbours]) hs
  have hperm : (start :: f.labels).Perm (List.range jt.cliques.length) := by
    apply (List.perm_ext_iff_of_nodup hfn List.nodup_range).2
    intro x
    rw [hfl, List.mem_range]
  have hlen : f.labels.length < jt.cliques.length := by
    have := hperm.length_eq
    simp at this
    omega
  have hrip : f.Rip jt.cliques start (clq jt.cliques start) := by
    refine RF.rip_of_good hjt f start _ hfg (List.nodup_cons.1 hfn).2 ?_
    intro v hv
    exact ⟨start, (List.nodup_cons.1 hfn).1, hv⟩
  obtain ⟨st', h1, h2⟩ := propagate_rep hd hx₀ hφ hpos hfr hff hfn hlen hrip
    (fun i hi => hst i ((hfl i).1 hi)) hsp
  refine ⟨st', h1, fun i hi => ?_⟩
  have h3 := h2 i ((hfl i).2 hi)
  have hvars : clq jt.cliques start ∪ f.vars jt.cliques = allVars jt.cliques := by
    ext v
    simp only [Finset.mem_union, RF.mem_vars, allVars, Finset.mem_biUnion, Finset.mem_range]
    constructor
    · rintro (h | ⟨j, hj, h⟩)
      · exact ⟨start, hs, h⟩
      · exact ⟨j, (hfl j).1 (List.mem_cons_of_mem _ hj), h⟩
    · rintro ⟨j, hj, h⟩
      rcases List.mem_cons.1 ((hfl j).2 hj) with rfl | hj'
      · exact Or.inl h
      · exact Or.inr ⟨j, hj', h⟩
  have hprod : (fun x => φ start x * f.prodF φ x) =
      fun x => ((List.range jt.cliques.length).map fun j => φ j x).prod := by
    funext x
    rw [RF.prodF_eq, ← List.prod_cons, ← List.map_cons (f := fun j => φ j x)]
    exact (hperm.map _).prod_eq
  rw [hvars, hprod] at h3
  exact h3

end Calibrate

end Verif.BBN
