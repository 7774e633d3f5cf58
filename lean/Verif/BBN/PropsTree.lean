import Verif.BBN.Props

/-!
# Properties of the join-tree construction and of propagation (C18–C22)
-/

namespace Verif.BBN
open Function

/-! ### C21 -/

section
variable {V S K : Type} [LinearOrder V]

theorem exists_perm_of_map_perm {α β : Type} (f : α → β) (l : List α) (m : List β)
    (h : m.Perm (l.map f)) : ∃ l' : List α, l'.Perm l ∧ m = l'.map f := by
  generalize hk : l.map f = k at h
  induction h generalizing l with
  | nil => exact ⟨l, List.Perm.refl l, hk.symm⟩
  | cons x _ ih =>
    obtain ⟨a, l', rfl, rfl, h2⟩ := List.map_eq_cons_iff.1 hk
    obtain ⟨l'', h3, rfl⟩ := ih l' h2
    exact ⟨a :: l'', h3.cons a, rfl⟩
  | swap x y l'' =>
    obtain ⟨a, l', rfl, rfl, h2⟩ := List.map_eq_cons_iff.1 hk
    obtain ⟨b, l', rfl, rfl, rfl⟩ := List.map_eq_cons_iff.1 h2
    exact ⟨b :: a :: l', List.Perm.swap _ _ _, rfl⟩
  | trans _ _ ih1 ih2 =>
    obtain ⟨l₁, h1, h1'⟩ := ih2 l hk
    obtain ⟨l₂, h2, h2'⟩ := ih1 l₁ h1'.symm
    exact ⟨l₂, h2.trans h1, h2'⟩

/-- **C21.** Resolving which factor introduces which variable: given the factors of an acyclic
network, listed in any order and with arguments in any order, the search terminates and returns
every variable with its own factor, parents before children. -/
theorem original_factors {nodes : List (Node V S K)} (hw : NodesWF nodes)
    (hac : Graph.Acyclic (arrows nodes)) {fs : List (Factor V S K)}
    (hfs : fs.Perm (nodes.map Node.toFactor)) :
    ∃ res, getOriginalFactors fs = .ok res ∧ res.Perm nodes ∧
      ∀ l₁ n l₂, res = l₁ ++ n :: l₂ → ∀ a ∈ n.args, a = n.var ∨ a ∈ l₁.map Node.var := by
  obtain ⟨l, hl, hfl⟩ : ∃ l : List (Node V S K), l.Perm nodes ∧ fs = l.map Node.toFactor := by
    obtain ⟨l, hl, he⟩ := exists_perm_of_map_perm Node.toFactor nodes fs hfs
    exact ⟨l, hl, he⟩
  subst hfl
  have hac' : Graph.Acyclic (arrows l) := by
    intro v hv
    apply hac v
    refine Relation.TransGen.mono ?_ v v hv
    intro a b hab
    obtain ⟨n, hn, h⟩ := link_arrows.1 hab
    exact link_arrows.2 ⟨n, hl.mem_iff.1 hn, h⟩
  obtain ⟨res, h1, h2, h3⟩ := getOriginalFactors_spec (hw.perm hl.symm) hac'
  exact ⟨res, h1, h2.trans hl, h3⟩

example : ∃ res, getOriginalFactors [exC.toFactor, exB.toFactor, exA.toFactor] = .ok res ∧
    res.Perm exNodes := by
  obtain ⟨res, h, hp, _⟩ := original_factors exNodes_network.wf exNodes_network.acyclic
    (fs := [exC.toFactor, exB.toFactor, exA.toFactor])
    ((List.reverse_perm [exA.toFactor, exB.toFactor, exC.toFactor]))
  exact ⟨res, h, hp⟩

/-! ### C18 -/

/-- **C18.** For every connected network the join-tree construction terminates without error, for
every order of equal-mass separators, and yields a tree of cliques (connected, one edge fewer than
cliques) with the running intersection property in which every CPD family lies in a clique; it
contains only network variables and no clique inside another. -/
theorem join_tree_correct {nd : Nondet V} (hnd : nd.Legal) {nodes : List (Node V S K)}
    (hw : NodesWF nodes) (hne : nodes ≠ []) (hc : Connected nodes) :
    ∃ jt, buildJoinTree nd nodes = .ok jt ∧
      jt.order.Perm (List.range jt.cliques.length) ∧
      (∀ e ∈ jt.edges, e.1 < jt.cliques.length ∧ e.2 < jt.cliques.length) ∧
      (∀ i j, i < jt.cliques.length → j < jt.cliques.length → Graph.WConn jt.edges i j) ∧
      jt.edges.length + 1 = jt.cliques.length ∧
      (∀ v i j, i < jt.cliques.length → j < jt.cliques.length →
        v ∈ clq jt.cliques i → v ∈ clq jt.cliques j →
        Graph.WConn (jt.edges.filter fun e => v ∈ clq jt.cliques e.1 ∩ clq jt.cliques e.2) i j) ∧
      (∀ n ∈ nodes, ∃ i, i < jt.cliques.length ∧ ∀ a ∈ n.args, a ∈ clq jt.cliques i) ∧
      (∀ i, ∀ v ∈ clq jt.cliques i, v ∈ nodes.map Node.var) ∧
      (∀ i j, i < jt.cliques.length → j < jt.cliques.length →
        clq jt.cliques i ⊆ clq jt.cliques j → i = j) := by
  obtain ⟨jt, hjt⟩ := (buildJoinTree_ok_iff hnd hw).2 ⟨hne, hc⟩
  have h := buildJoinTree_facts hnd hw hjt
  refine ⟨jt, hjt, h.junction.order_perm, h.junction.edge_lt, h.junction.connected,
    h.junction.edge_count, h.junction.running, ?_, h.vars, h.antichain⟩
  intro n hn
  obtain ⟨i, hi, hs⟩ := h.family n hn
  exact ⟨i, hi, fun a ha => hs (by simpa using ha)⟩

/-- The construction succeeds for connected networks only. -/
theorem join_tree_only_connected {nd : Nondet V} (hnd : nd.Legal) {nodes : List (Node V S K)}
    (hw : NodesWF nodes) : (∃ jt, buildJoinTree nd nodes = .ok jt) ↔
      nodes ≠ [] ∧ Connected nodes :=
  buildJoinTree_ok_iff hnd hw

example : ∃ jt, buildJoinTree exNd exNodes = .ok jt :=
  (join_tree_only_connected exNd_legal exNodes_network.wf).2
    ⟨exNodes_network.nonempty, exNodes_network.connected⟩

/-! ### C19 -/

/-- Position of a vertex in an elimination order: every nonempty finite set has a first one. -/
theorem exists_first {l : List V} {Q : Finset V} (hne : Q.Nonempty) (hQ : ∀ u ∈ Q, u ∈ l) :
    ∃ l₁ v l₂, l = l₁ ++ v :: l₂ ∧ v ∈ Q ∧ ∀ u ∈ Q, u ≠ v → u ∈ l₂ := by
  induction l with
  | nil =>
    obtain ⟨u, hu⟩ := hne
    exact absurd (hQ u hu) (by simp)
  | cons a l ih =>
    by_cases ha : a ∈ Q
    · refine ⟨[], a, l, rfl, ha, fun u hu hua => ?_⟩
      exact (List.mem_cons.1 (hQ u hu)).resolve_left hua
    · obtain ⟨l₁, v, l₂, h, hv, hu⟩ := ih fun u hu =>
        (List.mem_cons.1 (hQ u hu)).resolve_left (by rintro rfl; exact ha hu)
      exact ⟨a :: l₁, v, l₂, by rw [h]; rfl, hv, hu⟩

/-- **C19.** Triangulation of any undirected graph with any priority function terminates having
eliminated every node exactly once, keeps the nodes and only adds edges; the elimination order is
perfect for the result, every cycle of length at least four has a chord, and the recorded cliques
are exactly the maximal complete sets of the result, none contained in another. -/
theorem triangulate_correct (prio : UG V → V → ℕ) {g : UG V} (hg : g.WF) :
    let t := triangulate prio g
    t.order.Perm g.nodes ∧ t.rem.nodes = [] ∧ t.gm.nodes = g.nodes ∧
    (∀ u, g.nbr u ⊆ t.gm.nbr u) ∧
    (∀ u ∈ g.nodes, ∀ w ∈ t.gm.nbr u, w ∈ g.nodes ∧ w ≠ u ∧ u ∈ t.gm.nbr w) ∧
    -- the elimination order is perfect
    (∀ l₁ v l₂, t.order = l₁ ++ v :: l₂ → ∀ a ∈ l₂, ∀ b ∈ l₂, a ≠ b →
      a ∈ t.gm.nbr v → b ∈ t.gm.nbr v → b ∈ t.gm.nbr a) ∧
    -- cycles `c 0, …, c (n-1)` have a chord
    (∀ (n : ℕ) (c : ℕ → V), 4 ≤ n → (∀ i, c (i + n) = c i) →
      (∀ i < n, ∀ j < n, c i = c j → i = j) → (∀ i, c i ∈ g.nodes) →
      (∀ i, c (i + 1) ∈ t.gm.nbr (c i)) → ∃ i, c (i + 2) ∈ t.gm.nbr (c i)) ∧
    -- the cliques are the maximal complete sets
    (∀ Q : Finset V, Q.Nonempty → (∀ u ∈ Q, u ∈ g.nodes) →
      (∀ u ∈ Q, ∀ w ∈ Q, u ≠ w → w ∈ t.gm.nbr u) → ∃ c ∈ t.cliques, Q ⊆ c) ∧
    (∀ c ∈ t.cliques, c.Nonempty ∧ (∀ u ∈ c, u ∈ g.nodes) ∧
      ∀ u ∈ c, ∀ w ∈ c, u ≠ w → w ∈ t.gm.nbr u) ∧
    (∀ c ∈ t.cliques, ∀ d ∈ t.cliques, c ⊆ d → c = d) ∧ t.cliques.Nodup := by
  obtain ⟨L, hL, ho, hc, hgm, hr⟩ := triangulate_elim prio hg
  intro t
  have hnodes : t.gm.nodes = g.nodes := by
    change (triangulate prio g).gm.nodes = _
    rw [hgm]
    clear hL ho hc hgm hr
    induction L generalizing g with
    | nil => rfl
    | cons p L ih =>
      rw [List.foldl_cons]
      have : ∀ (L : List (V × Finset V)) (g : UG V),
          (L.foldl (fun g p => g.fill p.2) g).nodes = g.nodes := by
        intro L
        induction L with
        | nil => intro g; rfl
        | cons q L ih => intro g; rw [List.foldl_cons, ih]; rfl
      rw [this]; rfl
  have hnbr : ∀ u w, w ∈ t.gm.nbr u ↔ w ∈ g.nbr u ∨ ∃ p ∈ L, u ∈ p.2 ∧ w ∈ p.2 ∧ w ≠ u := by
    intro u w
    change w ∈ (triangulate prio g).gm.nbr u ↔ _
    rw [hgm]
    exact mem_fillAll L g u w
  have hperm : t.order.Perm g.nodes := by
    change (triangulate prio g).order.Perm _
    rw [ho]; exact hL.perm
  have hsym : ∀ u ∈ g.nodes, ∀ w ∈ t.gm.nbr u, w ∈ g.nodes ∧ w ≠ u ∧ u ∈ t.gm.nbr w := by
    intro u hu w hw
    rcases (hnbr u w).1 hw with h | ⟨p, hp, h1, h2, h3⟩
    · have hwn := hg.sub u hu w h
      refine ⟨hwn, ?_, (hnbr w u).2 (Or.inl (hg.symm u hu w hwn h))⟩
      rintro rfl
      exact hg.irrefl w hu h
    · exact ⟨hL.sub hg p hp w h2, h3, (hnbr w u).2 (Or.inr ⟨p, hp, h2, h1, h3.symm⟩)⟩
  -- later neighbours lie in the recorded cluster
  have hlater : ∀ l₁ v l₂, t.order = l₁ ++ v :: l₂ → ∃ p ∈ L, p.1 = v ∧
      ∀ a ∈ l₂, a ∈ t.gm.nbr v → a ∈ p.2 := by
    intro l₁ v l₂ h
    change (triangulate prio g).order = _ at h
    rw [ho] at h
    obtain ⟨L₁, L', hL', h1, h2⟩ := List.map_eq_append_iff.1 h
    obtain ⟨p, L₂, rfl, h3, h4⟩ := List.map_eq_cons_iff.1 h2
    refine ⟨p, by rw [hL']; simp, h3, ?_⟩
    intro a ha hav
    refine hL.later hg L₁ p L₂ hL' a (h4 ▸ ha) ?_
    rw [h3]
    change a ∈ (triangulate prio g).gm.nbr v at hav
    rwa [hgm] at hav
  have hperf : ∀ l₁ v l₂, t.order = l₁ ++ v :: l₂ → ∀ a ∈ l₂, ∀ b ∈ l₂, a ≠ b →
      a ∈ t.gm.nbr v → b ∈ t.gm.nbr v → b ∈ t.gm.nbr a := by
    intro l₁ v l₂ h a ha b hb hab hav hbv
    obtain ⟨p, hp, _, hl⟩ := hlater l₁ v l₂ h
    exact (hnbr a b).2 (Or.inr ⟨p, hp, hl a ha hav, hl b hb hbv, hab.symm⟩)
  have hmax : ∀ Q : Finset V, Q.Nonempty → (∀ u ∈ Q, u ∈ g.nodes) →
      (∀ u ∈ Q, ∀ w ∈ Q, u ≠ w → w ∈ t.gm.nbr u) → ∃ c ∈ t.cliques, Q ⊆ c := by
    intro Q hne hQ hadj
    obtain ⟨l₁, v, l₂, h, hv, hu⟩ := exists_first hne fun u hu => hperm.mem_iff.2 (hQ u hu)
    obtain ⟨p, hp, hpv, hl⟩ := hlater l₁ v l₂ h
    obtain ⟨d, hd, hpd⟩ := maxi_covers (List.mem_map_of_mem (f := Prod.snd) hp)
    refine ⟨d, ?_, ?_⟩
    · change d ∈ (triangulate prio g).cliques
      rw [hc]; exact hd
    · intro u hu'
      apply hpd
      by_cases huv : u = v
      · rw [huv, ← hpv]; exact hL.mem_self p hp
      · exact hl u (hu u hu' huv) (hadj v hv u hu' (Ne.symm huv))
  refine ⟨hperm, hr, hnodes, fun u w hw => (hnbr u w).2 (Or.inl hw), hsym, hperf, ?_, hmax, ?_, ?_,
    ?_⟩
  · intro n c hn hper hinj hcn hadj
    have hmod : ∀ i, ∃ j, j < n ∧ c j = c i := by
      intro i
      induction i using Nat.strong_induction_on with
      | _ i ih =>
        by_cases hi : i < n
        · exact ⟨i, hi, rfl⟩
        · obtain ⟨j, hj, hji⟩ := ih (i - n) (by omega)
          refine ⟨j, hj, ?_⟩
          rw [hji, ← hper (i - n)]
          congr 1; omega
    let Q := (Finset.range n).image c
    have hmemQ : ∀ i, c i ∈ Q := by
      intro i
      obtain ⟨j, hj, hji⟩ := hmod i
      rw [← hji]
      exact Finset.mem_image_of_mem c (Finset.mem_range.2 hj)
    obtain ⟨l₁, v, l₂, h, hv, hu⟩ := exists_first (l := t.order) ⟨c 0, hmemQ 0⟩ (Q := Q) (by
      intro u hu
      obtain ⟨i, _, rfl⟩ := Finset.mem_image.1 hu
      exact hperm.mem_iff.2 (hcn i))
    obtain ⟨i, hi, rfl⟩ := Finset.mem_image.1 hv
    rw [Finset.mem_range] at hi
    -- the neighbours of `c i` on the cycle are `c (i + 1)` and `c (i + (n - 1))`
    have hprev : c (i + n - 1 + 1) = c i := by
      rw [show i + n - 1 + 1 = i + n by omega]
      exact hper i
    have hnext : c (i + n - 1 + 2) = c (i + 1) := by
      rw [show i + n - 1 + 2 = i + 1 + n by omega]
      exact hper (i + 1)
    have h1 : c (i + 1) ∈ t.gm.nbr (c i) := hadj i
    have h2 : c (i + n - 1) ∈ t.gm.nbr (c i) := by
      have := hadj (i + n - 1)
      rw [hprev] at this
      exact (hsym _ (hcn _) _ this).2.2
    have hne : c (i + n - 1) ≠ c (i + 1) := by
      -- representatives below `n`
      intro he
      by_cases hi0 : i = 0
      · subst hi0
        have := hinj (0 + n - 1) (by omega) (0 + 1) (by omega) he
        omega
      · have he1 : c (i - 1) = c (i + n - 1) := by
          rw [show i + n - 1 = i - 1 + n by omega, hper]
        by_cases hin : i + 1 < n
        · have := hinj (i - 1) (by omega) (i + 1) hin (he1.trans he)
          omega
        · have he2 : c (i + 1) = c 0 := by
            rw [show i + 1 = 0 + n by omega, hper]
          have := hinj (i - 1) (by omega) 0 (by omega) (he1.trans (he.trans he2))
          omega
    refine ⟨i + n - 1, ?_⟩
    rw [hnext]
    exact hperf l₁ (c i) l₂ h _ (hu _ (hmemQ _) (hsym _ (hcn _) _ h2).2.1) _
      (hu _ (hmemQ _) (hsym _ (hcn _) _ h1).2.1) hne h2 h1
  · intro d hd
    change d ∈ (triangulate prio g).cliques at hd
    rw [hc] at hd
    obtain ⟨p, hp, rfl⟩ := List.mem_map.1 (maxi_subset d hd)
    exact ⟨⟨p.1, hL.mem_self p hp⟩, hL.sub hg p hp,
      fun u hu w hw huw => (hnbr u w).2 (Or.inr ⟨p, hp, hu, hw, huw.symm⟩)⟩
  · intro c hc' d hd
    change c ∈ (triangulate prio g).cliques at hc'
    change d ∈ (triangulate prio g).cliques at hd
    rw [hc] at hc' hd
    exact hL.antichain hg c hc' d hd
  · change (triangulate prio g).cliques.Nodup
    rw [hc]
    exact maxi_nodup

/-- A square: not chordal, so triangulation has to add an edge. -/
def exSquare : UG ℕ := ⟨[0, 1, 2, 3], fun v => if v < 4 then {(v + 1) % 4, (v + 3) % 4} else ∅⟩

theorem exSquare_wf : exSquare.WF :=
  ⟨by decide, by decide, by decide, by decide⟩

example : ∃ i, (fun i => i % 4) (i + 2) ∈
    (triangulate priorityFunc exSquare).gm.nbr ((fun i => i % 4) i) := by
  have h := triangulate_correct priorityFunc exSquare_wf
  refine h.2.2.2.2.2.2.1 4 (fun i => i % 4) (by omega) (by intro i; simp) ?_ ?_ ?_
  · intro i hi j hj h; change i % 4 = j % 4 at h; omega
  · intro i
    have : i % 4 < 4 := Nat.mod_lt _ (by omega)
    simp [exSquare]
    omega
  · intro i
    apply h.2.2.2.1
    have : i % 4 < 4 := Nat.mod_lt _ (by omega)
    simp only [exSquare, this, if_true, Finset.mem_insert, Finset.mem_singleton]
    omega

end

section
variable {V S K : Type} [LinearOrder V] [DecidableEq S] [Field K] [LinearOrder K]
  [IsStrictOrderedRing K]

/-- The entry of the table of a set `c` of variables at the assignment `x`. -/
def entry (c : Finset V) (tt : TT V S K) (x : V → S) : K := (tt.lookup (keyOf (names c) x)).getD 0

/-- The table has exactly one entry for every assignment of states to the variables `c`. -/
def FullTable (dom : V → List S) (c : Finset V) (tt : TT V S K) : Prop :=
  (tt.map Prod.fst).Perm (perms dom (names c))

theorem rep_of_full {dom : V → List S} (hd : ∀ v, (dom v).Nodup) {c : Finset V} {tt : TT V S K}
    (h : FullTable dom c tt) : Rep dom (names c) tt (entry c tt) where
  keys := h
  val := by
    intro x _ v hv
    unfold entry
    rw [lookup_of_mem_nodup (h.nodup_iff.2 (perms_nodup hd _)) hv]
    rfl

theorem entry_of_rep {dom : V → List S} (hd : ∀ v, (dom v).Nodup) {c : Finset V} {tt : TT V S K}
    {f : (V → S) → K} (h : Rep dom (names c) tt f) {x : V → S} (hx : Valid dom x) :
    entry c tt x = f x := by
  unfold entry
  rw [h.lookup hd hx]
  rfl

theorem entry_dependsOn (c : Finset V) (tt : TT V S K) :
    DependsOn (entry c tt) (c : Set V) := by
  intro x y h
  unfold entry
  have : keyOf (names c) x = keyOf (names c) y :=
    keyOf_eq_iff.2 fun v hv => h v (by simpa using mem_names.1 hv)
  rw [this]

/-! ### C20 -/

/-- **C20.** Every CPD is assigned to exactly one clique, which contains its family, and the
product of the initial clique potentials is the joint distribution, restricted to the
assignments agreeing with the evidence; separators start at one. -/
theorem initial_potentials {nd : Nondet V} (hnd : nd.Legal) {dom : V → List S}
    {nodes : List (Node V S K)} (hN : IsNetwork dom nodes) (hd : ∀ v, (dom v).Nodup) {x₀ : V → S}
    (hx₀ : ∀ v, x₀ v ∈ dom v)
    {ev : List (V × S)} (hk : (ev.map Prod.fst).Nodup) (hev : GoodEvidence dom nodes ev)
    {jt : JT V} (hjt : buildJoinTree nd nodes = .ok jt) :
    ∃ asg st, assignClusters jt nodes = .ok asg ∧ initPotentials dom jt asg ev = .ok st ∧
      asg.map Prod.snd = nodes ∧
      (∀ q ∈ asg, q.1 < jt.cliques.length ∧ ∀ a ∈ q.2.args, a ∈ clq jt.cliques q.1) ∧
      (∀ i < jt.cliques.length, FullTable dom (clq jt.cliques i) (st.cp i)) ∧
      (∀ x, (∀ v, x v ∈ dom v) →
        ((List.range jt.cliques.length).map fun i => entry (clq jt.cliques i) (st.cp i) x).prod =
          if Agrees ev x then joint nodes x else 0) ∧
      (∀ e ∈ jt.edges, FullTable dom (clq jt.cliques e.1 ∩ clq jt.cliques e.2) (st.sp e) ∧
        ∀ kv ∈ st.sp e, kv.2 = 1) := by
  have ht := buildJoinTree_facts hnd hN.wf hjt
  obtain ⟨home, hasg, hh⟩ := assignClusters_ok ht
  obtain ⟨st, hst, hcp, hsp⟩ := initPotentials_ok (dom := dom) hN.wf hh ev hx₀
  refine ⟨_, st, hasg, hst, by simp [Function.comp_def], ?_, fun i hi => (hcp i hi).keys, ?_, ?_⟩
  · intro q hq
    obtain ⟨n, hn, rfl⟩ := List.mem_map.1 hq
    exact ⟨(hh n hn).1, fun a ha => (hh n hn).2 (by simpa using ha)⟩
  · intro x hx
    rw [← prod_efn hN.wf hk (fun p hp => (hev p hp).1) x,
      ← prod_partition home (fun n => efn ev n x) jt.cliques.length nodes fun n hn => (hh n hn).1]
    congr 1
    apply List.map_congr_left
    intro i hi
    exact entry_of_rep hd (hcp i (List.mem_range.1 hi)) hx
  · intro e _
    refine ⟨(hsp e).keys, ?_⟩
    intro kv hkv
    obtain ⟨y, _, _, he⟩ := (hsp e).entry (names_nodup _) hx₀ hkv
    rw [he]

example : ∃ jt asg, buildJoinTree exNd exNodes = .ok jt ∧ assignClusters jt exNodes = .ok asg ∧
    asg.map Prod.snd = exNodes := by
  obtain ⟨jt, hjt⟩ := (join_tree_only_connected exNd_legal exNodes_network.wf).2
    ⟨exNodes_network.nonempty, exNodes_network.connected⟩
  obtain ⟨asg, _, h, _, h2, _⟩ := initial_potentials exNd_legal exNodes_network
    (fun _ => by simp [exDom]) (x₀ := fun _ => true) (fun _ => by simp [exDom])
    (ev := []) (by simp) (by simp [GoodEvidence]) hjt
  exact ⟨jt, asg, hjt, h, h2⟩

/-! ### C22 -/

theorem sum_out_clique {dom : V → List S} {cl : List (Finset V)} {i : ℕ} (hi : i < cl.length)
    {R : Finset V} (hR : R ⊆ clq cl i) (P : (V → S) → K) (y : V → S) :
    sumOver dom ((names (clq cl i)).filter (· ∉ names R)) (sumF dom (allVars cl \ clq cl i) P) y =
      sumF dom (allVars cl \ R) P y := by
  have h1 : sumOver dom ((names (clq cl i)).filter (· ∉ names R))
      (sumF dom (allVars cl \ clq cl i) P) y =
      sumF dom (clq cl i \ R) (sumF dom (allVars cl \ clq cl i) P) y := by
    apply sumOver_perm
    apply (List.perm_ext_iff_of_nodup ((names_nodup _).filter _) (Finset.sort_nodup _ _)).2
    intro a
    simp [List.mem_filter, mem_names]
  rw [h1, ← sumF_union]
  · congr 1
    ext a
    simp only [Finset.mem_union, Finset.mem_sdiff]
    have : a ∈ clq cl i → a ∈ allVars cl := fun h =>
      Finset.mem_biUnion.2 ⟨i, Finset.mem_range.2 hi, h⟩
    have hRa : a ∈ R → a ∈ clq cl i := fun h => hR h
    tauto
  · rw [Finset.disjoint_left]
    intro a h1 h2
    exact (Finset.mem_sdiff.1 h2).2 (Finset.mem_sdiff.1 h1).1

/-- **C22.** On any junction tree with nonnegative potentials, from any starting clique and for any
order of visiting neighbours, propagation succeeds and leaves in every clique the sum of the
product of all initial potentials over the variables outside the clique; two adjacent cliques
then agree on their separator. -/
theorem propagate_calibrates {dom : V → List S} (hd : ∀ v, (dom v).Nodup) {x₀ : V → S}
    (hx₀ : ∀ v, x₀ v ∈ dom v) {jt : JT V} (hjt : IsJunctionTree jt) {ord : ℕ → List ℕ}
    (hord : ∀ i, (ord i).Perm (neighbours jt.edges i)) {start : ℕ}
    (hs : start < jt.cliques.length) {st : PState V S K}
    (hfull : ∀ i < jt.cliques.length, FullTable dom (clq jt.cliques i) (st.cp i))
    (hpos : ∀ i < jt.cliques.length, ∀ kv ∈ st.cp i, 0 ≤ kv.2)
    (hsep : ∀ e, FullTable dom (label jt.cliques e) (st.sp e) ∧ ∀ kv ∈ st.sp e, kv.2 = 1) :
    ∃ st', propagate jt ord start st = .ok st' ∧
      (∀ i < jt.cliques.length, FullTable dom (clq jt.cliques i) (st'.cp i) ∧
        ∀ x, (∀ v, x v ∈ dom v) → entry (clq jt.cliques i) (st'.cp i) x =
          ((worlds dom (names (allVars jt.cliques \ clq jt.cliques i)) x).map fun y =>
            ((List.range jt.cliques.length).map fun j =>
              entry (clq jt.cliques j) (st.cp j) y).prod).sum) ∧
      (∀ e ∈ jt.edges, ∃ t₁ t₂,
        project (st'.cp e.1) (names (clq jt.cliques e.1)) (names (label jt.cliques e)) = .ok t₁ ∧
        project (st'.cp e.2) (names (clq jt.cliques e.2)) (names (label jt.cliques e)) = .ok t₂ ∧
        FullTable dom (label jt.cliques e) t₁ ∧ FullTable dom (label jt.cliques e) t₂ ∧
        ∀ x, (∀ v, x v ∈ dom v) →
          entry (label jt.cliques e) t₁ x = entry (label jt.cliques e) t₂ x) := by
  let φ : ℕ → (V → S) → K := fun i x =>
    if i < jt.cliques.length then entry (clq jt.cliques i) (st.cp i) x else 1
  have hφe : ∀ i, i < jt.cliques.length → φ i = entry (clq jt.cliques i) (st.cp i) := by
    intro i hi; funext x; simp [φ, hi]
  obtain ⟨st', h1, h2⟩ := propagate_junction hd hx₀ hjt hord (φ := φ)
    (by
      intro i x y h
      by_cases hi : i < jt.cliques.length
      · rw [hφe i hi]; exact entry_dependsOn _ _ h
      · simp [φ, hi])
    (by
      intro i x hx
      by_cases hi : i < jt.cliques.length
      · rw [hφe i hi]
        have := (rep_of_full hd (hfull i hi)).mem hx
        exact hpos i hi _ this
      · simp [φ, hi])
    hs
    (fun i hi => by rw [hφe i hi]; exact rep_of_full hd (hfull i hi))
    (fun e => (rep_of_full hd (hsep e).1).congr fun x hx =>
      (hsep e).2 _ ((rep_of_full hd (hsep e).1).mem hx))
  have hP : (fun x => ((List.range jt.cliques.length).map fun j => φ j x).prod) =
      fun x => ((List.range jt.cliques.length).map fun j =>
        entry (clq jt.cliques j) (st.cp j) x).prod := by
    funext x
    congr 1
    apply List.map_congr_left
    intro j hj
    rw [hφe j (List.mem_range.1 hj)]
  rw [hP] at h2
  refine ⟨st', h1, fun i hi => ⟨(h2 i hi).keys, fun x hx => ?_⟩, ?_⟩
  · rw [entry_of_rep hd (h2 i hi) hx]
    exact sumOver_worlds dom _ _ x
  · intro e he
    obtain ⟨hi, hj⟩ := hjt.edge_lt e he
    have hl1 : label jt.cliques e ⊆ clq jt.cliques e.1 := Finset.inter_subset_left
    have hl2 : label jt.cliques e ⊆ clq jt.cliques e.2 := Finset.inter_subset_right
    obtain ⟨t₁, ht₁, hr₁⟩ := project_rep (R := names (label jt.cliques e)) hd (names_nodup _)
      (names_nodup _) (fun r hr => mem_names.2 (hl1 (mem_names.1 hr))) (h2 _ hi) hx₀
    obtain ⟨t₂, ht₂, hr₂⟩ := project_rep (R := names (label jt.cliques e)) hd (names_nodup _)
      (names_nodup _) (fun r hr => mem_names.2 (hl2 (mem_names.1 hr))) (h2 _ hj) hx₀
    refine ⟨t₁, t₂, ht₁, ht₂, hr₁.keys, hr₂.keys, fun x hx => ?_⟩
    rw [entry_of_rep hd hr₁ hx, entry_of_rep hd hr₂ hx, sum_out_clique hi hl1,
      sum_out_clique hj hl2]

end

section
variable {V S K : Type} [LinearOrder V] [DecidableEq S] [Field K] [LinearOrder K]
  [IsStrictOrderedRing K]

/-- The hypotheses of `propagate_calibrates` are met by the join tree and the initial potentials of
every network. -/
theorem propagate_calibrates_applies {nd : Nondet V} (hnd : nd.Legal) {dom : V → List S}
    {nodes : List (Node V S K)} (hN : IsNetwork dom nodes) {x₀ : V → S} (hx₀ : ∀ v, x₀ v ∈ dom v) :
    ∃ jt asg st, buildJoinTree nd nodes = .ok jt ∧ assignClusters jt nodes = .ok asg ∧
      initPotentials dom jt asg [] = .ok st ∧ IsJunctionTree jt ∧
      (∀ i < jt.cliques.length, FullTable dom (clq jt.cliques i) (st.cp i)) ∧
      (∀ i < jt.cliques.length, ∀ kv ∈ st.cp i, 0 ≤ kv.2) ∧
      (∀ e, FullTable dom (label jt.cliques e) (st.sp e) ∧ ∀ kv ∈ st.sp e, kv.2 = 1) := by
  obtain ⟨jt, hjt⟩ := (buildJoinTree_ok_iff hnd hN.wf).2 ⟨hN.nonempty, hN.connected⟩
  have ht := buildJoinTree_facts hnd hN.wf hjt
  obtain ⟨home, hasg, hh⟩ := assignClusters_ok ht
  obtain ⟨st, hst, hcp, hsp⟩ := initPotentials_ok (dom := dom) hN.wf hh [] hx₀
  refine ⟨jt, _, st, hjt, hasg, hst, ht.junction, fun i hi => (hcp i hi).keys, ?_, ?_⟩
  · intro i hi kv hkv
    obtain ⟨y, hy, _, he⟩ := (hcp i hi).entry (names_nodup _) hx₀ hkv
    rw [he]
    apply list_prod_nonneg
    intro a ha
    obtain ⟨n, hn, rfl⟩ := List.mem_map.1 ha
    exact efn_nonneg hN.nonneg (List.mem_filter.1 hn).1 hy
  · intro e
    refine ⟨(hsp e).keys, ?_⟩
    intro kv hkv
    obtain ⟨y, _, _, he⟩ := (hsp e).entry (names_nodup _) hx₀ hkv
    rw [he]

example : ∃ jt asg st, buildJoinTree exNd exNodes = .ok jt ∧ assignClusters jt exNodes = .ok asg ∧
    initPotentials exDom jt asg [] = .ok st ∧ IsJunctionTree jt := by
  obtain ⟨jt, asg, st, h1, h2, h3, h4, _⟩ :=
    propagate_calibrates_applies exNd_legal exNodes_network (x₀ := fun _ => true)
      (fun _ => by simp [exDom])
  exact ⟨jt, asg, st, h1, h2, h3, h4⟩

end

end Verif.BBN
