import Verif.Network.Equivalent
import Verif.BBN.LocalMarkov

/-!
# C146: without colliders, answers are relative frequencies in the data
-/

namespace Verif.Network

open Verif.BBN (Frame Fitted netNodes cpdsOf domOf Agrees massOf link_arrows)
open Verif.Graph (Linked Collider NoCycle EdgeRel)
open Function

section
variable {V S K : Type} [LinearOrder V] [LinearOrder S] [Field K] [LinearOrder K] [IsStrictOrderedRing K]

/-- Specification: the number of rows in which every node has one of its states, and the nodes of `ev` have the states given there. -/
def seen {K' : Type} (net : Net V S K') (df : DF V S) (ev : List (V × S)) : ℕ :=
  df.rows.countP fun r => Known net r ∧ ∀ p ∈ ev, r p.1 = some p.2

variable {net : Net V S K} {df : DF V S} {dom : V → List S} {nodes : List (BBN.Node V S K)} {x₀ : V → S}

/-- The distribution of the nodes `F` is that of the rows. -/
def Matches (net : Net V S K) (df : DF V S) (dom : V → List S) (nodes : List (BBN.Node V S K)) (x₀ : V → S) (F : Finset V) : Prop :=
  ∀ x : V → S, (∀ t ∈ F, x t ∈ statesOf net t) →
    massOf dom nodes x₀ (fun y => ∀ t ∈ F, y t = x t) * (cell net df ∅ x : K) = cell net df F x

omit [Field K] [LinearOrder K] [IsStrictOrderedRing K] in
theorem cell_congr {F : Finset V} {x y : V → S} (h : ∀ t ∈ F, x t = y t) : cell net df F x = cell net df F y := by
  unfold cell
  refine List.countP_congr fun r _ => ?_
  simp only [decide_eq_true_eq]
  exact and_congr_right fun _ => forall₂_congr fun t ht => by rw [h t ht]

omit [Field K] [LinearOrder K] [IsStrictOrderedRing K] in
theorem cell_split (hks : ∀ v, (statesOf net v).Nodup) {u : V} (hu : u ∈ net.nodes) {F : Finset V} (huF : u ∉ F) (x : V → S) :
    ((statesOf net u).map fun s => cell net df (insert u F) (update x u s)).sum = cell net df F x := by
  unfold cell
  rw [← sum_countP (hks u) df.rows (fun r => Known net r ∧ ∀ t ∈ F, r t = some (x t)) (fun r => r u) fun r _ h => h.1 u hu]
  congr 1
  refine List.map_congr_left fun s _ => List.countP_congr fun r _ => ?_
  simp only [decide_eq_true_eq, Finset.forall_mem_insert, update_self]
  have : (∀ t ∈ F, r t = some (update x u s t)) ↔ ∀ t ∈ F, r t = some (x t) :=
    forall₂_congr fun t ht => by rw [update_of_ne fun e : t = u => huF (e ▸ ht)]
  rw [this]
  tauto

theorem Matches.drop (hks : ∀ v, (statesOf net v).Nodup) (hw : BBN.NodesWF nodes) (hvars : nodes.map BBN.Node.var = net.nodes)
    (hdom : ∀ v ∈ net.nodes, dom v = statesOf net v) (hx₀ : ∀ v ∈ net.nodes, x₀ v ∈ dom v)
    {u : V} (hu : u ∈ net.nodes) {F : Finset V} (h : Matches net df dom nodes x₀ (insert u F)) : Matches net df dom nodes x₀ F := by
  by_cases huF : u ∈ F
  · rwa [Finset.insert_eq_of_mem huF] at h
  intro x hx
  obtain ⟨dom', hc, hd, -⟩ := BBN.exists_total_dom (dom := dom) (nodes := nodes) (x₀ := x₀)
    (fun n hn => by
      have := List.mem_map_of_mem (f := BBN.Node.var) hn
      rw [hvars] at this
      rw [hdom _ this]
      exact hks _) (by rw [hvars]; exact hx₀)
  have hsplit := BBN.massOf_split hd hw (fun y => ∀ t ∈ F, y t = x t) (by rw [hvars]; exact hu) x₀
  simp only [BBN.massOf_dom_congr hc] at hsplit
  rw [hc u (by rw [hvars]; exact hu), hdom u hu] at hsplit
  rw [← hsplit, ← cell_split hks hu huF, ← Nat.coe_castAddMonoidHom, map_list_sum, List.map_map, ← List.sum_map_mul_right]
  congr 1
  refine List.map_congr_left fun s hs => ?_
  have := h (update x u s) (by
    intro t ht
    by_cases e : t = u
    · subst e; rwa [update_self]
    · rw [update_of_ne e]
      exact hx t ((Finset.mem_insert.1 ht).resolve_left e))
  rw [comp_apply, Nat.coe_castAddMonoidHom, ← this, cell_congr (F := ∅) (x := update x u s) (y := x) (by simp)]
  congr 1
  refine BBN.massOf_congr fun y => ?_
  rw [Finset.forall_mem_insert, update_self, and_comm]
  refine and_congr_right fun _ => forall₂_congr fun t ht => ?_
  rw [update_of_ne fun e : t = u => huF (e ▸ ht)]

theorem Matches.subset (hks : ∀ v, (statesOf net v).Nodup) (hw : BBN.NodesWF nodes) (hvars : nodes.map BBN.Node.var = net.nodes)
    (hdom : ∀ v ∈ net.nodes, dom v = statesOf net v) (hx₀ : ∀ v ∈ net.nodes, x₀ v ∈ dom v)
    {F F' : Finset V} (hF' : ∀ u ∈ F', u ∈ net.nodes) (hF : F ⊆ F') (h : Matches net df dom nodes x₀ F') : Matches net df dom nodes x₀ F := by
  have key : ∀ D : Finset V, (∀ u ∈ D, u ∈ net.nodes) → Matches net df dom nodes x₀ (D ∪ F) → Matches net df dom nodes x₀ F := by
    intro D
    induction D using Finset.induction_on with
    | empty => intro _ h; rwa [Finset.empty_union] at h
    | insert d D _ ih =>
      intro hD h
      rw [Finset.insert_union] at h
      exact ih (fun u hu => hD u (Finset.mem_insert_of_mem hu)) (h.drop hks hw hvars hdom hx₀ (hD d (Finset.mem_insert_self d D)))
  exact key F' hF' (by rwa [Finset.union_eq_left.2 hF])

omit [LinearOrder S] [Field K] [LinearOrder K] [IsStrictOrderedRing K] in
theorem exists_agrees {ev : List (V × S)} (hk : (ev.map Prod.fst).Nodup) (x : V → S) : ∃ z : V → S, Agrees ev z := by
  induction ev with
  | nil => exact ⟨x, by simp [Agrees]⟩
  | cons q ev ih =>
    obtain ⟨h1, h2⟩ := List.nodup_cons.1 hk
    obtain ⟨z, hz⟩ := ih h2
    refine ⟨update z q.1 q.2, fun p hp => ?_⟩
    rcases List.mem_cons.1 hp with rfl | hp
    · exact update_self ..
    · rw [update_of_ne fun e : p.1 = q.1 => h1 (e ▸ List.mem_map_of_mem (f := Prod.fst) hp)]
      exact hz p hp

/-- Linked nodes are a node with some of its parents. -/
theorem linked_family {G : Finset (V × V)} {rank : V → ℕ} (hrank : ∀ a b, (a, b) ∈ G → rank a < rank b) {C : Finset V} (hne : C.Nonempty)
    (hC : ∀ a ∈ C, ∀ b ∈ C, a ≠ b → Linked (fun a b => (a, b) ∈ G) a b) :
    ∃ w ∈ C, C ⊆ insert w (parentSet G w) := by
  obtain ⟨w, hw, hmax⟩ := Finset.exists_max_image C rank hne
  refine ⟨w, hw, fun u hu => ?_⟩
  rw [Finset.mem_insert, mem_parentSet]
  by_cases e : u = w
  · exact Or.inl e
  rcases hC u hu w hw e with h | h
  · exact Or.inr h
  · exact absurd (hmax u hu) (not_le.2 (hrank w u h))

/-- **C146**: the structure has no colliders, the network is fitted by maximum likelihood, and the evidence has been seen in the data.  If
the nodes of the evidence and the node `v` are linked to each other, then the engine reports the relative frequency of the states of `v`
among the rows with this evidence. -/
theorem query_frequencies {int : ℕ → S} (hint : Injective int) {ns : List V} {E : List (V × V)} (hE : IsStructure ns E) (hEne : E ≠ [])
    (hcol : ∀ a c b, ¬ Collider (EdgeRel E) a c b) (hr : Reach int ns E net) (hne : ∀ v ∈ net.nodes, statesOf net v ≠ []) {h h' : Heap V S}
    {ref : ℕ} (hdf : h[ref]? = some df) {a : FitArgs K} (hess : ∀ n, a.ess = some n → 0 < n) (ha : a.method = "MaximumLikelihoodEstimator")
    {net' : Net V S K} (hf : fitCpds int net h ref a = (net', h', .ok ())) {okName : V → Bool} (hok : ∀ v ∈ net.nodes, okName v = true)
    {nd : BBN.Nondet V} (hnd : nd.Legal) :
    ∃ tables e, cpds net' = .ok tables ∧ BBN.Engine.create okName (framesOf tables) = .ok e ∧
      ∀ ev : List (V × S), (ev.map Prod.fst).Nodup → (∀ p ∈ ev, p.1 ∈ net.nodes ∧ p.2 ∈ statesOf net p.1) → 0 < seen net df ev →
        ∀ v ∈ net.nodes, v ∉ ev.map Prod.fst → (∀ u ∈ v :: ev.map Prod.fst, ∀ w ∈ v :: ev.map Prod.fst, u ≠ w → Linked (EdgeRel E) u w) →
        ∃ out, e.query nd ev = .ok out ∧
          ∀ s ∈ statesOf net v, BBN.Gives out v s ((seen net df ((v, s) :: ev) : K) / seen net df ev) := by
  have hw := hr.wf hE
  obtain ⟨tables, hc, n1, f1⟩ := fitted_is_network hint hE hEne hr hne hess hf
  have w1 := framesWF hint hE hEne hr hne hf hc
  obtain ⟨-, -, -, tables', h1', -, h3⟩ := fit_cpds_correct hint hE hr hne hdf hf
  rw [hc] at h1'
  cases h1'
  have hfr : (framesOf tables).map Prod.fst = net.nodes := by rw [← n1, framesOf, List.map_map]; rfl
  obtain ⟨e, he, hinv, hcp⟩ := BBN.Engine.create_ok f1 (okName := okName) fun q hq => hok _ (hfr ▸ List.mem_map_of_mem (f := Prod.fst) hq)
  refine ⟨tables, e, hc, he, ?_⟩
  obtain ⟨x₀, hx₀⟩ : ∃ x₀ : V → S, ∀ v ∈ net.nodes, x₀ v ∈ statesOf net v := by
    refine ⟨fun v => (statesOf net v).headD (int 0), fun v hv => ?_⟩
    obtain ⟨s, l, hl⟩ := List.exists_cons_of_ne_nil (hne v hv)
    simp [hl]
  have hxd : ∀ v ∈ net.nodes, x₀ v ∈ domOf (framesOf tables) v := fun v hv => by rw [w1.dom v hv]; exact hx₀ v hv
  set G : Finset (V × V) := E.toFinset with hGdef
  have hG : (fun a b => (a, b) ∈ G) = EdgeRel E := by funext a b; simp [hGdef, EdgeRel]
  have hnode : ∀ u v, (u, v) ∈ G → u ∈ net.nodes ∧ v ∈ net.nodes := by
    intro u v huv
    rw [hw.nodes]
    exact ⟨mem_nodesOfEdges.2 ⟨_, List.mem_toFinset.1 huv, Or.inl rfl⟩, mem_nodesOfEdges.2 ⟨_, List.mem_toFinset.1 huv, Or.inr rfl⟩⟩
  have hnc : NoCycle fun a b => (a, b) ∈ G := by rw [hG]; exact hw.acyclic
  obtain ⟨rank, hrank⟩ := Graph.exists_rank hnc
  have htotal : massOf (domOf (framesOf tables)) (netNodes (cpdsOf (framesOf tables))) x₀ (fun _ => True) = 1 := by
    obtain ⟨dom', hd, -, hx'⟩ := BBN.exists_total_dom f1.states_nodup (x₀ := x₀) (by rw [w1.vars]; exact hxd)
    rw [← BBN.massOf_dom_congr hd]
    exact BBN.massOf_total f1.wf f1.acyclic ((BBN.IsNetwork.congr hd f1).normalised) hx'
  have hfam : ∀ v ∈ net.nodes, Matches net df (domOf (framesOf tables)) (netNodes (cpdsOf (framesOf tables))) x₀ (insert v (parentSet G v)) := by
    intro v
    induction hk : rank v using Nat.strong_induction_on generalizing v with
    | _ k ih =>
      intro hv
      have hZ : Matches net df (domOf (framesOf tables)) (netNodes (cpdsOf (framesOf tables))) x₀ (parentSet G v) := by
        by_cases hne' : (parentSet G v).Nonempty
        · obtain ⟨w, hwZ, hsub⟩ := linked_family hrank hne' (by
            intro a ha' b hb hab
            by_contra hl
            rw [hG] at hl
            rw [mem_parentSet, hGdef, List.mem_toFinset] at ha' hb
            exact hcol a v b ⟨ha', hb, hab, hl⟩)
          have hwv := mem_parentSet.1 hwZ
          refine (ih (rank w) (hk ▸ hrank w v hwv) w rfl (hnode w v hwv).1).subset w1.nodup w1.wf w1.vars w1.dom hxd ?_ hsub
          intro u hu
          rcases Finset.mem_insert.1 hu with rfl | hu
          · exact (hnode _ v hwv).1
          · exact (hnode _ _ (mem_parentSet.1 hu)).1
        · rw [Finset.not_nonempty_iff_eq_empty] at hne'
          rw [hne']
          intro x _
          rw [BBN.massOf_congr (B := fun _ => True) (by simp), htotal, one_mul]
      have hvZ : v ∉ parentSet G v := fun h => hnc.irrefl v (mem_parentSet.1 h)
      intro x hx
      have hmem : v ∈ tables.map Prod.fst := by rw [n1]; exact hv
      obtain ⟨⟨v', t⟩, ht, e'⟩ := List.mem_map.1 hmem
      change v' = v at e'
      subst e'
      have hpl := (h3 v' t ht).2.1
      have hpset : parentSet G v' = t.parents.toFinset := by
        ext u
        rw [mem_parentSet, hGdef, List.mem_toFinset, List.mem_toFinset, hpl.2]
      have hloc := BBN.massOf_local f1.wf f1.acyclic f1.normalised f1.states_nodup (mem_netNodes_framesOf.2 ⟨(v', t), ht, rfl⟩)
        (x₀ := x₀) (by rw [w1.vars]; exact hxd) (ev := t.parents.map fun p => (p, x p)) (z := x) (s := x v')
        (by
          intro p hp hpv
          rw [List.map_map]
          simpa using (List.mem_cons.1 hp).resolve_left hpv)
        (by
          intro z hz hd
          rw [List.map_map] at hz
          have hz : z ∈ t.parents := by simpa using hz
          refine f1.acyclic z (Relation.TransGen.head' ?_ hd)
          refine link_arrows.2 ⟨_, mem_netNodes_framesOf.2 ⟨(v', t), ht, rfl⟩, rfl, List.mem_cons_of_mem _ hz, ?_⟩
          rintro rfl
          exact w1.not_parent _ t ht hz)
        (by
          intro p hp
          obtain ⟨q, -, rfl⟩ := List.mem_map.1 hp
          rfl)
        (by
          change x v' ∈ domOf (framesOf tables) v'
          rw [w1.dom v' hv]
          exact hx v' (Finset.mem_insert_self _ _))
      change massOf _ _ x₀ (fun y => Agrees (t.parents.map fun p => (p, x p)) y ∧ y v' = x v') = _ * _ at hloc
      have hag : ∀ y, Agrees (t.parents.map fun p => (p, x p)) y ↔ ∀ u ∈ parentSet G v', y u = x u := by
        intro y
        rw [hpset]
        simp [Agrees]
      have hfn : (t.entry (x v') (t.parents.map x)).getD 0 = factor a net df x v' (parentSet G v') := by
        rw [(h3 v' t ht).2.2.2.2 (x v') (hx v' (Finset.mem_insert_self _ _)) (t.parents.map x), Option.getD_some, hpset]
        · unfold factor
          rw [List.prod_toFinset _ (hpl.1.imp fun h => ne_of_lt h)]
          congr 1
          funext s
          unfold observed
          refine List.countP_congr fun r _ => ?_
          simp only [decide_eq_true_eq, List.map_map, List.map_inj_left, List.mem_toFinset, comp_apply]
        · rw [IsConfig, List.forall₂_map_left_iff, List.forall₂_same]
          intro p hp
          exact hx p (Finset.mem_insert_of_mem (by rw [hpset]; exact List.mem_toFinset.2 hp))
      rw [update_eq_self] at hloc
      change _ = (t.entry (x v') (t.parents.map x)).getD 0 * _ at hloc
      rw [hfn, BBN.massOf_congr hag, BBN.massOf_congr (B := fun y => ∀ u ∈ insert v' (parentSet G v'), y u = x u) (fun y => by
        rw [hag, Finset.forall_mem_insert, and_comm])] at hloc
      rw [hloc, mul_assoc, hZ x fun u hu => hx u (Finset.mem_insert_of_mem hu), factor_eq w1.nodup a hv, if_pos ha]
      by_cases h0 : cell net df (parentSet G v') x = 0
      · have := cell_mono (net := net) (df := df) x (Finset.subset_insert v' (parentSet G v'))
        rw [if_pos h0, h0, Nat.le_zero.1 (this.trans h0.le)]
        simp
      · rw [if_neg h0]
        exact div_mul_cancel₀ _ (Nat.cast_ne_zero.2 h0)
  have hclique : ∀ C : Finset V, C.Nonempty → (∀ u ∈ C, u ∈ net.nodes) → (∀ u ∈ C, ∀ w ∈ C, u ≠ w → Linked (EdgeRel E) u w) →
      Matches net df (domOf (framesOf tables)) (netNodes (cpdsOf (framesOf tables))) x₀ C := by
    intro C hC hCn hCl
    obtain ⟨w, hwC, hsub⟩ := linked_family hrank hC (by rw [hG]; exact hCl)
    refine (hfam w (hCn w hwC)).subset w1.nodup w1.wf w1.vars w1.dom hxd ?_ hsub
    intro u hu
    rcases Finset.mem_insert.1 hu with rfl | hu
    · exact hCn _ hwC
    · exact (hnode _ _ (mem_parentSet.1 hu)).1
  intro ev hk hev hpos v hv hvev hlink
  have hseen : ∀ (ev : List (V × S)) (x : V → S), Agrees ev x → seen net df ev = cell net df (ev.map Prod.fst).toFinset x := by
    intro ev x hx
    unfold seen cell
    refine List.countP_congr fun r _ => ?_
    simp only [decide_eq_true_eq, List.mem_toFinset, List.mem_map]
    refine and_congr_right fun _ => ⟨?_, fun h p hp => ?_⟩
    · rintro h _ ⟨p, hp, rfl⟩
      rw [h p hp, hx p hp]
    · rw [h p.1 ⟨p, hp, rfl⟩, hx p hp]
  have hM : ∀ (ev : List (V × S)) (x : V → S), Agrees ev x → (∀ p ∈ ev, p.1 ∈ net.nodes ∧ p.2 ∈ statesOf net p.1) →
      (∀ u ∈ ev.map Prod.fst, ∀ w ∈ ev.map Prod.fst, u ≠ w → Linked (EdgeRel E) u w) →
      massOf (domOf (framesOf tables)) (netNodes (cpdsOf (framesOf tables))) x₀ (Agrees ev) * (cell net df ∅ x₀ : K) = seen net df ev := by
    intro ev x hx hev hl
    rw [hseen ev x hx]
    have hcongr : ∀ y, Agrees ev y ↔ ∀ t ∈ (ev.map Prod.fst).toFinset, y t = x t := by
      intro y
      simp only [Agrees, List.mem_toFinset, List.mem_map]
      constructor
      · rintro h _ ⟨p, hp, rfl⟩
        rw [h p hp, hx p hp]
      · intro h p hp
        rw [h p.1 ⟨p, hp, rfl⟩, hx p hp]
    rw [BBN.massOf_congr hcongr, cell_congr (x := x₀) (y := x) (by simp)]
    by_cases hne' : (ev.map Prod.fst).toFinset.Nonempty
    · refine hclique _ hne' ?_ (by simpa only [List.mem_toFinset] using hl) x ?_
      · intro u hu
        obtain ⟨p, hp, rfl⟩ := List.mem_map.1 (List.mem_toFinset.1 hu)
        exact (hev p hp).1
      · intro u hu
        obtain ⟨p, hp, rfl⟩ := List.mem_map.1 (List.mem_toFinset.1 hu)
        rw [hx p hp]
        exact (hev p hp).2
    · rw [Finset.not_nonempty_iff_eq_empty] at hne'
      rw [hne', BBN.massOf_congr (B := fun _ => True) (by simp), htotal, one_mul]
  obtain ⟨z, hz⟩ : ∃ z : V → S, Agrees ev z := exists_agrees hk x₀
  have hN0 : (cell net df ∅ x₀ : K) ≠ 0 := by
    intro e0
    have := hM ev z hz hev fun u hu w hw => hlink u (List.mem_cons_of_mem _ hu) w (List.mem_cons_of_mem _ hw)
    rw [e0, mul_zero] at this
    exact absurd this.symm (Nat.cast_ne_zero.2 hpos.ne')
  obtain ⟨out, ho, hrep⟩ := hinv.query_answers hnd f1 (by rw [hcp]; exact f1.connected) (by rw [hfr]; exact hxd) hk (by
    intro p hp
    rw [hfr, w1.dom _ (hev p hp).1]
    exact hev p hp)
  refine ⟨out, ho, fun s hs => ?_⟩
  have hg := hrep.gives (hfr.symm ▸ hv) (by rw [w1.dom v hv]; exact hs)
  rw [hcp] at hg
  have m1 := hM ev z hz hev fun u hu w hw => hlink u (List.mem_cons_of_mem _ hu) w (List.mem_cons_of_mem _ hw)
  have m2 := hM ((v, s) :: ev) (update z v s) (by
    intro p hp
    rcases List.mem_cons.1 hp with rfl | hp
    · exact update_self ..
    · rw [update_of_ne (fun e : p.1 = v => hvev (e ▸ List.mem_map_of_mem (f := Prod.fst) hp))]
      exact hz p hp) (by
    intro p hp
    rcases List.mem_cons.1 hp with rfl | hp
    · exact ⟨hv, hs⟩
    · exact hev p hp) hlink
  rw [BBN.massOf_congr (B := fun x => Agrees ev x ∧ x v = s) (fun y => by simp [Agrees, and_comm])] at m2
  rwa [← m1, ← m2, mul_div_mul_right _ _ hN0]

end

end Verif.Network
