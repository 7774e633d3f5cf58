import Verif.BBN.PropsTree
import Mathlib.Combinatorics.SimpleGraph.Acyclic

/-!
# C113: which cliques triangulation makes

The order of elimination is the greedy one of minimal fill.  If some order adds no edge, the chosen one adds none.  In a network without
undirected cycles the cliques are families.
-/

namespace Verif.BBN

open Verif.Graph

variable {V : Type} [LinearOrder V]

/-! ### Specification -/

/-- The number of edges missing between the neighbours of `v`, in the graph on `nodes` with adjacency `adj`. -/
noncomputable def missingEdges (nodes : Finset V) (adj : V → V → Prop) (v : V) : ℕ := by
  classical
  exact ((nodes ×ˢ nodes).filter fun p => p.1 < p.2 ∧ adj v p.1 ∧ adj v p.2 ∧ ¬ adj p.1 p.2).card

/-- Greedy elimination: repeatedly the node that lacks the fewest edges between its neighbours (the first in the order of names if there
are several) is removed, after joining all its neighbours. -/
def MinFillOrder (nodes : Finset V) (adj : V → V → Prop) : List V → Prop
  | [] => nodes = ∅
  | v :: l => v ∈ nodes ∧
    (∀ w ∈ nodes, missingEdges nodes adj v < missingEdges nodes adj w ∨
      (missingEdges nodes adj v = missingEdges nodes adj w ∧ v ≤ w)) ∧
    MinFillOrder (nodes.erase v) (fun a b => adj a b ∨ (a ≠ b ∧ adj v a ∧ adj v b)) l

/-- An order of the nodes in which the later neighbours of each node are joined to one another, so eliminating in this order adds no
edge. -/
structure FillFree (g : UG V) (l : List V) : Prop where
  perm : l.Perm g.nodes
  complete : ∀ l₁ v l₂, l = l₁ ++ v :: l₂ → ∀ a ∈ l₂, ∀ b ∈ l₂, a ≠ b → a ∈ g.nbr v → b ∈ g.nbr v → b ∈ g.nbr a

/-- Parent and child. -/
def skeleton {S K : Type} (nodes : List (Node V S K)) : SimpleGraph V :=
  SimpleGraph.fromRel fun u v => ∃ n ∈ nodes, v = n.var ∧ u ∈ n.parents

/-! ### The greedy choice -/

theorem pickMin_least {prio : V → ℕ} : ∀ {l : List V} {v : V}, pickMin prio l = some v →
    ∀ w ∈ l, prio v < prio w ∨ (prio v = prio w ∧ v ≤ w)
  | [], _, h => by simp [pickMin] at h
  | a :: l, v, h => by
    simp only [pickMin] at h
    intro w hw
    split at h
    · rename_i hn
      cases h
      rw [pickMin_none.1 hn, List.mem_singleton] at hw
      subst hw
      exact Or.inr ⟨rfl, le_rfl⟩
    · rename_i m hm
      have ih := pickMin_least hm
      split at h
      · rename_i hlt
        cases h
        rcases List.mem_cons.1 hw with rfl | hw
        · exact Or.inr ⟨rfl, le_rfl⟩
        · rcases ih w hw with h1 | ⟨h1, h2⟩ <;> rcases hlt with h3 | ⟨h3, h4⟩
          · exact Or.inl (h3.trans h1)
          · exact Or.inl (h3 ▸ h1)
          · exact Or.inl (h1 ▸ h3)
          · exact Or.inr ⟨h3.trans h1, h4.trans h2⟩
      · rename_i hlt
        cases h
        rcases List.mem_cons.1 hw with rfl | hw
        · push Not at hlt
          rcases hlt.1.lt_or_eq with h1 | h1
          · exact Or.inl h1
          · exact Or.inr ⟨h1, (hlt.2 h1.symm).le⟩
        · exact ih w hw

theorem mem_combos2_sorted {l : List V} (hl : l.Pairwise (· < ·)) (a b : V) :
    (a, b) ∈ combos2 l ↔ a ∈ l ∧ b ∈ l ∧ a < b := by
  induction l with
  | nil => simp [combos2]
  | cons x l ih =>
    rw [List.pairwise_cons] at hl
    simp only [combos2, List.mem_append, List.mem_map, Prod.mk.injEq, ih hl.2, List.mem_cons]
    constructor
    · rintro (⟨c, hc, rfl, rfl⟩ | ⟨h1, h2, h3⟩)
      · exact ⟨Or.inl rfl, Or.inr hc, hl.1 _ hc⟩
      · exact ⟨Or.inr h1, Or.inr h2, h3⟩
    · rintro ⟨rfl | h1, rfl | h2, h3⟩
      · exact absurd h3 (lt_irrefl _)
      · exact Or.inl ⟨b, h2, rfl, rfl⟩
      · exact absurd h3 (lt_asymm (hl.1 _ h1))
      · exact Or.inr ⟨h1, h2, h3⟩

theorem combos2_nodup {l : List V} (hl : l.Pairwise (· < ·)) : (combos2 l).Nodup := by
  induction l with
  | nil => simp [combos2]
  | cons x l ih =>
    rw [List.pairwise_cons] at hl
    simp only [combos2]
    rw [List.nodup_append]
    refine ⟨List.Nodup.map (fun a b h => (Prod.mk.inj h).2) (hl.2.imp fun h => h.ne), ih hl.2, ?_⟩
    rintro ⟨a, b⟩ h1 ⟨c, d⟩ h2 heq
    obtain ⟨e, -, heq'⟩ := List.mem_map.1 h1
    cases heq'
    cases heq
    exact absurd (hl.1 _ ((mem_combos2_sorted hl.2 _ _).1 h2).1) (lt_irrefl _)

theorem priorityFunc_eq {g : UG V} (hg : g.WF) {v : V} (hv : v ∈ g.nodes) :
    priorityFunc g v = missingEdges g.nodes.toFinset (fun a b => b ∈ g.nbr a) v := by
  classical
  have hs : ((g.nbr v).sort (· ≤ ·)).Pairwise (· < ·) := (Finset.sortedLT_sort _).pairwise
  unfold priorityFunc missingEdges
  simp only [combos2]
  rw [List.filter_append, List.filter_eq_nil_iff.2, List.nil_append,
    ← List.toFinset_card_of_nodup ((combos2_nodup hs).filter _)]
  · congr 1
    ext ⟨a, b⟩
    simp only [List.mem_toFinset, List.mem_filter, mem_combos2_sorted hs, Finset.mem_sort, Finset.mem_filter, Finset.mem_product,
      decide_eq_true_eq]
    constructor
    · rintro ⟨⟨h1, h2, h3⟩, h4⟩
      have ha := hg.sub v hv a h1
      have hb := hg.sub v hv b h2
      exact ⟨⟨ha, hb⟩, h3, h1, h2, fun h => h4 (hg.symm a ha b hb h)⟩
    · rintro ⟨⟨ha, hb⟩, h3, h1, h2, h4⟩
      exact ⟨⟨h1, h2, h3⟩, fun h => h4 (hg.symm b hb a ha h)⟩
  · intro p hp
    obtain ⟨b, hb, rfl⟩ := List.mem_map.1 hp
    rw [Finset.mem_sort] at hb
    simpa using hg.symm v hv b (hg.sub v hv b hb) hb

theorem missingEdges_congr {nodes : Finset V} {adj adj' : V → V → Prop} (h : ∀ a ∈ nodes, ∀ b ∈ nodes, adj a b ↔ adj' a b) {v : V}
    (hv : v ∈ nodes) : missingEdges nodes adj v = missingEdges nodes adj' v := by
  classical
  unfold missingEdges
  congr 1
  apply Finset.filter_congr
  rintro ⟨a, b⟩ hp
  rw [Finset.mem_product] at hp
  simp only [h v hv a hp.1, h v hv b hp.2, h a hp.1 b hp.2]

theorem MinFillOrder.congr {l : List V} : ∀ {nodes : Finset V} {adj adj' : V → V → Prop},
    (∀ a ∈ nodes, ∀ b ∈ nodes, adj a b ↔ adj' a b) → MinFillOrder nodes adj l → MinFillOrder nodes adj' l := by
  induction l with
  | nil => exact fun _ h => h
  | cons v l ih =>
    rintro nodes adj adj' h ⟨hv, h1, h2⟩
    refine ⟨hv, fun w hw => ?_, ih (fun a ha b hb => ?_) h2⟩
    · rw [← missingEdges_congr h hv, ← missingEdges_congr h hw]
      exact h1 w hw
    · have ha := Finset.mem_of_mem_erase ha
      have hb := Finset.mem_of_mem_erase hb
      rw [h a ha b hb, h v hv a ha, h v hv b hb]

theorem triLoop_order : ∀ (fuel : ℕ) (st : TriState V), st.rem.WF → st.rem.nodes.length ≤ fuel →
    ∃ l, (triLoop priorityFunc fuel st).order = st.order ++ l ∧ MinFillOrder st.rem.nodes.toFinset (fun a b => b ∈ st.rem.nbr a) l
  | 0, st, _, hf => by
    have h0 : st.rem.nodes = [] := List.length_eq_zero_iff.1 (Nat.le_zero.1 hf)
    exact ⟨[], by simp [triLoop], by simp [MinFillOrder, h0]⟩
  | fuel + 1, st, hg, hf => by
    match hp : pickMin (priorityFunc st.rem) st.rem.nodes with
    | none => exact ⟨[], by simp [triLoop, hp], by simp [MinFillOrder, pickMin_none.1 hp]⟩
    | some v =>
      have hv := pickMin_mem hp
      have hlen : (triStep st v).rem.nodes.length ≤ fuel := by
        change (st.rem.nodes.erase v).length ≤ fuel
        rw [List.length_erase_of_mem hv]
        omega
      obtain ⟨l, h1, h2⟩ := triLoop_order fuel (triStep st v) (hg.elim hv) hlen
      have hn : (triStep st v).rem.nodes.toFinset = st.rem.nodes.toFinset.erase v := by
        ext a
        rw [List.mem_toFinset, Finset.mem_erase, List.mem_toFinset]
        exact UG.mem_elim_nodes hg
      refine ⟨v :: l, ?_, List.mem_toFinset.2 hv, fun w hw => ?_, ?_⟩
      · simp only [triLoop, hp]
        rw [h1]
        simp [triStep]
      · rw [List.mem_toFinset] at hw
        rw [← priorityFunc_eq hg hv, ← priorityFunc_eq hg hw]
        exact pickMin_least hp w hw
      · rw [← hn]
        refine h2.congr fun a ha b hb => ?_
        rw [hn, Finset.mem_erase, List.mem_toFinset] at ha hb
        refine (hg.elim_nbr hv ha.2 ha.1 b).trans ?_
        have := hb.1
        constructor
        · rintro ⟨-, h | ⟨h1, h2, h3⟩⟩
          · exact Or.inl h
          · exact Or.inr ⟨h3.symm, h1, h2⟩
        · rintro (h | ⟨h1, h2, h3⟩)
          · exact ⟨this, Or.inl h⟩
          · exact ⟨this, Or.inr ⟨h2, h3, h1.symm⟩⟩

/-- **C113**: the nodes are eliminated in the greedy order of minimal fill. -/
theorem triangulate_min_fill {g : UG V} (hg : g.WF) :
    MinFillOrder g.nodes.toFinset (fun a b => b ∈ g.nbr a) (triangulate priorityFunc g).order := by
  obtain ⟨l, h1, h2⟩ := triLoop_order g.nodes.length ⟨g, g, [], []⟩ hg le_rfl
  rw [List.nil_append] at h1
  rw [triangulate, h1]
  exact h2

/-! ### Graphs that need no edges -/

theorem FillFree.simplicial {g : UG V} (hg : g.WF) {l : List V} (hl : FillFree g l) {v : V} {l' : List V} (h : l = v :: l') {a b : V}
    (ha : a ∈ g.nbr v) (hb : b ∈ g.nbr v) (hab : a ≠ b) : b ∈ g.nbr a := by
  have hv : v ∈ g.nodes := hl.perm.mem_iff.1 (by rw [h]; simp)
  have mem : ∀ a ∈ g.nbr v, a ∈ l' := by
    intro a ha
    have h1 := hl.perm.mem_iff.2 (hg.sub v hv a ha)
    rw [h, List.mem_cons] at h1
    rcases h1 with rfl | h1
    · exact absurd ha (hg.irrefl _ hv)
    · exact h1
  exact hl.complete [] v l' h a (mem a ha) b (mem b hb) hab ha hb

theorem missing_zero {g : UG V} (hg : g.WF) {v : V} (hv : v ∈ g.nodes) :
    missingEdges g.nodes.toFinset (fun a b => b ∈ g.nbr a) v = 0 ↔ ∀ a ∈ g.nbr v, ∀ b ∈ g.nbr v, a ≠ b → b ∈ g.nbr a := by
  unfold missingEdges
  rw [Finset.card_eq_zero, Finset.eq_empty_iff_forall_notMem]
  simp only [Finset.mem_filter, Finset.mem_product, List.mem_toFinset]
  constructor
  · intro h a ha b hb hab
    have ha' := hg.sub v hv a ha
    have hb' := hg.sub v hv b hb
    by_contra hn
    rcases lt_or_gt_of_ne hab with h1 | h1
    · exact h (a, b) ⟨⟨ha', hb'⟩, h1, ha, hb, hn⟩
    · exact h (b, a) ⟨⟨hb', ha'⟩, h1, hb, ha, fun h2 => hn (hg.symm b hb' a ha' h2)⟩
  · rintro h ⟨a, b⟩ ⟨-, h1, h2, h3, h4⟩
    exact h4 (h a h2 b h3 h1.ne)

theorem triLoop_fillFree : ∀ (fuel : ℕ) (st : TriState V), st.rem.WF → st.rem.nodes.length ≤ fuel → (∃ l, FillFree st.rem l) →
    (∀ a ∈ st.rem.nodes, st.rem.nbr a ⊆ st.gm.nbr a) → ∀ u, (triLoop priorityFunc fuel st).gm.nbr u = st.gm.nbr u
  | 0, st, _, _, _, _ => fun u => rfl
  | fuel + 1, st, hg, hf, ⟨l, hl⟩, hsub => by
    intro u
    match hp : pickMin (priorityFunc st.rem) st.rem.nodes with
    | none => simp [triLoop, hp]
    | some v =>
      have hv := pickMin_mem hp
      have hlen : (triStep st v).rem.nodes.length ≤ fuel := by
        change (st.rem.nodes.erase v).length ≤ fuel
        rw [List.length_erase_of_mem hv]
        omega
      -- the chosen node lacks no edge
      have hzero : missingEdges st.rem.nodes.toFinset (fun a b => b ∈ st.rem.nbr a) v = 0 := by
        cases hl' : l with
        | nil =>
          rw [hl'] at hl
          have := hl.perm.mem_iff.2 hv
          simp at this
        | cons w l' =>
          have hw : w ∈ st.rem.nodes := hl.perm.mem_iff.1 (by rw [hl']; simp)
          have h0 := (missing_zero hg hw).2 fun a ha b hb hab => hl.simplicial hg hl' ha hb hab
          have h1 := pickMin_least hp w hw
          rw [priorityFunc_eq hg hv, priorityFunc_eq hg hw, h0] at h1
          omega
      have hcl := (missing_zero hg hv).1 hzero
      have hfill : ∀ u, (st.gm.fill (st.rem.cluster v)).nbr u = st.gm.nbr u := by
        intro u
        simp only [UG.fill]
        split
        · rename_i hu
          rw [Finset.union_eq_left]
          intro w hw
          rw [Finset.mem_erase] at hw
          simp only [UG.cluster, Finset.mem_insert] at hu hw
          rcases hu with rfl | hu
          · rcases hw.2 with rfl | hw2
            · exact absurd rfl hw.1
            · exact hsub _ hv hw2
          · have hun := hg.sub v hv u hu
            rcases hw.2 with rfl | hw2
            · exact hsub u hun (hg.symm _ hv u hun hu)
            · exact hsub u hun (hcl u hu w hw2 hw.1.symm)
        · rfl
      have hnbr : ∀ a ∈ st.rem.nodes, a ≠ v → ∀ w, w ∈ (st.rem.elim v).nbr a ↔ w ≠ v ∧ w ∈ st.rem.nbr a := by
        intro a ha hav w
        rw [hg.elim_nbr hv ha hav]
        constructor
        · rintro ⟨h1, h2 | ⟨h2, h3, h4⟩⟩
          · exact ⟨h1, h2⟩
          · exact ⟨h1, hcl a h2 w h3 h4.symm⟩
        · exact fun h => ⟨h.1, Or.inl h.2⟩
      have hfree : FillFree (st.rem.elim v) (l.erase v) := by
        refine ⟨?_, ?_⟩
        · exact hl.perm.erase v
        · have hnd : l.Nodup := hl.perm.nodup_iff.2 hg.nodup
          intro l₁ x l₂ heq a ha b hb hab hax hbx
          have hx : x ∈ l.erase v := by rw [heq]; simp
          have ha' : a ∈ l.erase v := by rw [heq]; simp [ha]
          have hb' : b ∈ l.erase v := by rw [heq]; simp [hb]
          rw [hnd.mem_erase_iff] at hx ha' hb'
          have hxn := hl.perm.mem_iff.1 hx.2
          have han := hl.perm.mem_iff.1 ha'.2
          rw [hnbr x hxn hx.1] at hax hbx
          rw [hnbr a han ha'.1]
          refine ⟨hb'.1, ?_⟩
          -- the same split of the whole list
          have hsubl : (x :: l₂).Sublist l := by
            refine List.Sublist.trans ?_ (List.erase_sublist (a := v) (l := l))
            rw [heq]
            exact List.sublist_append_right _ _
          obtain ⟨m₁, m₂, hm, hm₂⟩ : ∃ m₁ m₂, l = m₁ ++ x :: m₂ ∧ l₂.Sublist m₂ := by
            obtain ⟨r₁, r₂, rfl, hr1, hr2⟩ := List.cons_sublist_iff.1 hsubl
            obtain ⟨s, t, rfl⟩ := List.append_of_mem hr1
            exact ⟨s, t ++ r₂, by simp, hr2.trans (List.sublist_append_right _ _)⟩
          exact hl.complete m₁ x m₂ hm a (hm₂.subset ha) b (hm₂.subset hb) hab hax.2 hbx.2
      have hstep := triLoop_fillFree fuel (triStep st v) (hg.elim hv) hlen ⟨_, hfree⟩ (by
        intro a ha w hw
        change a ∈ (st.rem.elim v).nodes at ha
        change w ∈ (st.rem.elim v).nbr a at hw
        change w ∈ (st.gm.fill (st.rem.cluster v)).nbr a
        rw [UG.mem_elim_nodes hg] at ha
        rw [hnbr a ha.2 ha.1] at hw
        rw [hfill]
        exact hsub a ha.2 hw.2) u
      simp only [triLoop, hp]
      rw [hstep]
      exact hfill u

/-- **C113**: if some order of elimination adds no edge, triangulation adds none. -/
theorem triangulate_fill_free {g : UG V} (hg : g.WF) {l : List V} (hl : FillFree g l) (u : V) :
    (triangulate priorityFunc g).gm.nbr u = g.nbr u :=
  triLoop_fillFree g.nodes.length ⟨g, g, [], []⟩ hg le_rfl ⟨l, hl⟩ (fun _ _ => Finset.Subset.refl _) u

/-! ### Networks without undirected cycles -/

section
variable {S K : Type}

/-- In a finite set of nodes of a graph without cycles, some node has at most one neighbour. -/
theorem exists_leaf {G : SimpleGraph V} (hG : G.IsAcyclic) {s : Finset V} (hs : s.Nonempty) :
    ∃ v ∈ s, ∀ a ∈ s, ∀ b ∈ s, G.Adj v a → G.Adj v b → a = b := by
  classical
  let H := G.induce (s : Set V)
  have hH : H.IsAcyclic := hG.induce _
  obtain ⟨r, hr⟩ := hs
  -- a longest path
  let P : ℕ → Prop := fun n => ∃ (u w : (s : Set V)) (p : H.Walk u w), p.IsPath ∧ p.length = n
  have h0 : P 0 := ⟨⟨r, hr⟩, ⟨r, hr⟩, .nil, .nil, rfl⟩
  have hbound : ∀ n, P n → n ≤ Fintype.card (s : Set V) := by
    rintro n ⟨u, w, p, hp, rfl⟩
    exact hp.length_lt.le
  obtain ⟨u, w, p, hp, hlen⟩ := Nat.findGreatest_spec (P := P) (Nat.zero_le (Fintype.card (s : Set V))) h0
  have hmax : ∀ n, P n → n ≤ p.length := by
    intro n hn
    rw [hlen]
    exact Nat.le_findGreatest (hbound n hn) hn
  have hlast : ∀ x : (s : Set V), H.Adj w x → x = p.penultimate := by
    intro x hx
    refine hH.eq_penultimate_of_adj_end hp hx ?_
    by_contra hn
    have := hmax (p.length + 1) ⟨u, x, p.concat hx, hp.concat hn hx, by simp⟩
    omega
  refine ⟨w, w.2, fun a ha b hb h1 h2 => ?_⟩
  have := (hlast ⟨a, ha⟩ h1).trans (hlast ⟨b, hb⟩ h2).symm
  exact congrArg Subtype.val this

/-- The nodes can be put in an order in which each has at most one neighbour among the later ones. -/
theorem exists_leaf_order {G : SimpleGraph V} (hG : G.IsAcyclic) (s : Finset V) :
    ∃ l : List V, l.Nodup ∧ (∀ v, v ∈ l ↔ v ∈ s) ∧
      ∀ l₁ v l₂, l = l₁ ++ v :: l₂ → ∀ a ∈ l₂, ∀ b ∈ l₂, G.Adj v a → G.Adj v b → a = b := by
  induction hn : s.card generalizing s with
  | zero =>
    rw [Finset.card_eq_zero] at hn
    subst hn
    exact ⟨[], by simp, by simp, by simp⟩
  | succ n ih =>
    obtain ⟨v, hv, hleaf⟩ := exists_leaf hG (Finset.card_pos.1 (by omega : 0 < s.card))
    obtain ⟨l, h1, h2, h3⟩ := ih (s.erase v) (by rw [Finset.card_erase_of_mem hv]; omega)
    refine ⟨v :: l, List.nodup_cons.2 ⟨by rw [h2]; simp, h1⟩, ?_, ?_⟩
    · intro w
      rw [List.mem_cons, h2, Finset.mem_erase]
      constructor
      · rintro (rfl | h)
        · exact hv
        · exact h.2
      · intro h
        by_cases hw : w = v
        · exact Or.inl hw
        · exact Or.inr ⟨hw, h⟩
    · intro l₁ x l₂ heq a ha b hb
      cases l₁ with
      | nil =>
        rw [List.nil_append] at heq
        injection heq with h4 h5
        subst h4 h5
        exact hleaf a (Finset.mem_of_mem_erase ((h2 a).1 ha)) b (Finset.mem_of_mem_erase ((h2 b).1 hb))
      | cons y l₁ =>
        injection heq with h4 h5
        exact h3 l₁ x l₂ h5 a ha b hb

theorem skeleton_adj {nodes : List (Node V S K)} {n : Node V S K} (hn : n ∈ nodes) {a : V} (ha : a ∈ n.args) (hne : a ≠ n.var) :
    (skeleton nodes).Adj a n.var := by
  rw [skeleton, SimpleGraph.fromRel_adj]
  exact ⟨hne, Or.inl ⟨n, hn, rfl, List.mem_filter.2 ⟨ha, by simpa using hne⟩⟩⟩

/-- Along such an order, a node together with its later neighbours in the moral graph is part of a family. -/
theorem later_family {nodes : List (Node V S K)} (hw : NodesWF nodes) {l : List V} (hnd : l.Nodup)
    (hl : ∀ v, v ∈ l ↔ v ∈ nodes.map Node.var)
    (hleaf : ∀ l₁ v l₂, l = l₁ ++ v :: l₂ → ∀ a ∈ l₂, ∀ b ∈ l₂, (skeleton nodes).Adj v a → (skeleton nodes).Adj v b → a = b)
    {l₁ l₂ : List V} {v : V} (heq : l = l₁ ++ v :: l₂) :
    ∃ n ∈ nodes, v ∈ n.args ∧ ∀ a ∈ l₂, a ∈ (moral nodes).nbr v → a ∈ n.args := by
  -- a later neighbour in the moral graph shares a family whose variable is not earlier
  have key : ∀ a ∈ l₂, ∀ n ∈ nodes, v ∈ n.args → a ∈ n.args → n.var ∈ v :: l₂ := by
    intro a ha n hn hv hna
    have hc : n.var ∈ l := (hl _).2 (List.mem_map_of_mem hn)
    rw [heq, List.mem_append] at hc
    rcases hc with hc | hc
    · exfalso
      obtain ⟨s, t, rfl⟩ := List.append_of_mem hc
      rw [heq] at hnd
      have hd := hnd
      simp only [List.append_assoc, List.cons_append] at hd
      have h1 : n.var ∉ t ++ v :: l₂ := by
        have := (List.nodup_append.1 hd).2.1
        exact (List.nodup_cons.1 this).1
      have hvn : v ≠ n.var := by rintro h; apply h1; simp [← h]
      have han : a ≠ n.var := by rintro h; apply h1; simp [← h, ha]
      have hva : v ≠ a := by
        rintro rfl
        have := (List.nodup_append.1 (List.nodup_cons.1 (List.nodup_append.1 hd).2.1).2).2.1
        exact (List.nodup_cons.1 this).1 ha
      exact hva (hleaf s n.var (t ++ v :: l₂) (by rw [heq]; simp) v (by simp) a (by simp [ha]) (skeleton_adj hn hv hvn).symm
        (skeleton_adj hn hna han).symm)
    · exact hc
  have hvn : v ∈ nodes.map Node.var := (hl v).1 (by rw [heq]; simp)
  obtain ⟨nv, hnv, hvar⟩ := List.mem_map.1 hvn
  -- the families that contain v and a later node: that of v or that of its one later neighbour
  by_cases hchild : ∃ n ∈ nodes, v ∈ n.args ∧ n.var ∈ l₂
  · obtain ⟨n, hn, hv, hc⟩ := hchild
    have hvc : v ≠ n.var := by
      rintro h
      rw [heq] at hnd
      have := (List.nodup_cons.1 (List.nodup_append.1 hnd).2.1).1
      exact this (h ▸ hc)
    refine ⟨n, hn, hv, fun a ha hav => ?_⟩
    rw [moral_nbr hw] at hav
    obtain ⟨hne, m, hm, hvm, ham⟩ := hav
    have hmv := key a ha m hm hvm ham
    rcases List.mem_cons.1 hmv with h1 | h1
    · -- a is a parent of v
      have hadj : (skeleton nodes).Adj v a := by
        have := skeleton_adj hm ham (by rw [h1]; exact hne)
        rw [h1] at this
        exact this.symm
      have := hleaf l₁ v l₂ heq a ha n.var hc hadj (skeleton_adj hn hv hvc)
      rw [this]
      exact hw.var_mem n hn
    · have hvm' : v ≠ m.var := by
        rintro h
        rw [heq] at hnd
        have := (List.nodup_cons.1 (List.nodup_append.1 hnd).2.1).1
        exact this (h ▸ h1)
      have h2 := hleaf l₁ v l₂ heq m.var h1 n.var hc (skeleton_adj hm hvm hvm') (skeleton_adj hn hv hvc)
      have : m = n := List.inj_on_of_nodup_map hw.nodup hm hn h2
      rwa [← this]
  · refine ⟨nv, hnv, hvar ▸ hw.var_mem nv hnv, fun a ha hav => ?_⟩
    rw [moral_nbr hw] at hav
    obtain ⟨hne, m, hm, hvm, ham⟩ := hav
    rcases List.mem_cons.1 (key a ha m hm hvm ham) with h1 | h1
    · have : m = nv := List.inj_on_of_nodup_map hw.nodup hm hnv (h1.trans hvar.symm)
      rwa [← this]
    · exact absurd ⟨m, hm, hvm, h1⟩ hchild

/-- **C113**: if the network has no undirected cycle, triangulation adds no edge to its moral graph. -/
theorem polytree_fill_free {nodes : List (Node V S K)} (hw : NodesWF nodes) (hs : (skeleton nodes).IsAcyclic) (u : V) :
    (triangulate priorityFunc (moral nodes)).gm.nbr u = (moral nodes).nbr u := by
  obtain ⟨l, hnd, hl, hleaf⟩ := exists_leaf_order hs (nodes.map Node.var).toFinset
  simp only [List.mem_toFinset] at hl
  refine triangulate_fill_free (moral_wf hw) (l := l) ⟨?_, ?_⟩ u
  · rw [moral_nodes]
    exact (List.perm_ext_iff_of_nodup hnd hw.nodup).2 hl
  · intro l₁ v l₂ heq a ha b hb hab hav hbv
    obtain ⟨n, hn, -, hf⟩ := later_family hw hnd hl hleaf heq
    rw [moral_nbr hw]
    exact ⟨hab.symm, n, hn, hf a ha hav, hf b hb hbv⟩

/-- **C113**: if the network has no undirected cycle, every clique of the join tree is part of a family, so no table is larger than a
conditional probability table. -/
theorem polytree_cliques {nodes : List (Node V S K)} (hw : NodesWF nodes) (hs : (skeleton nodes).IsAcyclic) {nd : Nondet V}
    {jt : JT V} (hjt : buildJoinTree nd nodes = .ok jt) : ∀ c ∈ jt.cliques, ∃ n ∈ nodes, ∀ v ∈ c, v ∈ n.args := by
  have hcl : jt.cliques = (triangulate priorityFunc (moral nodes)).cliques := by
    unfold buildJoinTree joinTreeOf at hjt
    split at hjt
    · cases hjt
    · cases hjt
      rfl
    · cases hjt
  intro c hc
  rw [hcl] at hc
  obtain ⟨-, -, -, -, -, -, -, -, h1, -, -⟩ := triangulate_correct priorityFunc (moral_wf hw)
  obtain ⟨hne, hsub, hcomp⟩ := h1 c hc
  obtain ⟨l, hnd, hl, hleaf⟩ := exists_leaf_order hs (nodes.map Node.var).toFinset
  simp only [List.mem_toFinset] at hl
  obtain ⟨l₁, v, l₂, heq, hv, hlater⟩ := exists_first (Q := c) (l := l) hne fun u hu => (hl u).2 (by
    rw [← moral_nodes]
    exact hsub u hu)
  obtain ⟨n, hn, hvn, hf⟩ := later_family hw hnd hl hleaf heq
  refine ⟨n, hn, fun u hu => ?_⟩
  by_cases huv : u = v
  · exact huv ▸ hvn
  · refine hf u (hlater u hu huv) ?_
    rw [← polytree_fill_free hw hs]
    exact hcomp v hv u hu (Ne.symm huv)

end

end Verif.BBN
