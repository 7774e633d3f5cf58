import Verif.BBN.Original

/-!
# Only the domains of network variables matter
-/

namespace Verif.BBN
open Function

section
variable {V S K : Type} [LinearOrder V] [DecidableEq S]

theorem worlds_congr {dom dom' : V → List S} : ∀ {vs : List V} (x : V → S),
    (∀ v ∈ vs, dom' v = dom v) → worlds dom' vs x = worlds dom vs x
  | [], _, _ => rfl
  | v :: vs, x, h => by
    simp only [worlds, h v List.mem_cons_self]
    apply List.flatMap_congr
    intro s _
    exact worlds_congr _ fun w hw => h w (List.mem_cons_of_mem _ hw)

theorem massOf_dom_congr [Semiring K] {dom dom' : V → List S} {nodes : List (Node V S K)}
    (h : ∀ v ∈ nodes.map Node.var, dom' v = dom v) (x₀ : V → S) (A : (V → S) → Prop)
    [DecidablePred A] : massOf dom' nodes x₀ A = massOf dom nodes x₀ A := by
  unfold massOf
  rw [worlds_congr x₀ h]

theorem allStates_congr {dom dom' : V → List S} {nodes : List (Node V S K)}
    (h : ∀ v ∈ nodes.map Node.var, dom' v = dom v) : allStates dom' nodes = allStates dom nodes := by
  unfold allStates
  apply List.flatMap_congr
  intro n hn
  rw [h n.var (List.mem_map_of_mem hn)]

theorem GoodEvidence.congr {dom dom' : V → List S} {nodes : List (Node V S K)}
    (h : ∀ v ∈ nodes.map Node.var, dom' v = dom v) {ev : List (V × S)}
    (hg : GoodEvidence dom nodes ev) : GoodEvidence dom' nodes ev := by
  intro p hp
  obtain ⟨h1, h2⟩ := hg p hp
  exact ⟨h1, by rw [h p.1 h1]; exact h2⟩

theorem IsNetwork.congr [Semiring K] [LE K] {dom dom' : V → List S} {nodes : List (Node V S K)}
    (h : ∀ v ∈ nodes.map Node.var, dom' v = dom v) (hN : IsNetwork dom nodes) :
    IsNetwork dom' nodes where
  wf := hN.wf
  nonempty := hN.nonempty
  acyclic := hN.acyclic
  connected := hN.connected
  states_nodup := fun n hn => by rw [h _ (List.mem_map_of_mem hn)]; exact hN.states_nodup n hn
  nonneg := fun n hn x hx => hN.nonneg n hn x fun a ha => by
    rw [← h a (hN.wf.args_sub n hn a ha)]; exact hx a ha
  normalised := fun n hn x hx => by
    rw [h _ (List.mem_map_of_mem hn)]
    exact hN.normalised n hn x fun a ha hav => by
      rw [← h a (hN.wf.args_sub n hn a ha)]; exact hx a ha hav

theorem perms_congr {dom dom' : V → List S} {X : List V} (h : ∀ v ∈ X, dom' v = dom v) :
    perms dom' X = perms dom X := by
  induction X with
  | nil => rfl
  | cons v X ih =>
    simp only [perms, h v List.mem_cons_self, ih fun w hw => h w (List.mem_cons_of_mem _ hw)]

theorem validateKeyvals_congr {dom dom' : V → List S} {nodes : List (Node V S K)}
    (h : ∀ v ∈ nodes.map Node.var, dom' v = dom v) (ev : List (V × S)) :
    validateKeyvals dom' nodes ev = validateKeyvals dom nodes ev := by
  induction ev with
  | nil => rfl
  | cons p ev ih =>
    obtain ⟨k, v⟩ := p
    simp only [validateKeyvals]
    by_cases hk : k ∉ nodes.map Node.var
    · rw [if_pos hk, if_pos hk]
    · rw [if_neg hk, if_neg hk, h k (not_not.1 hk), ih]

/-- Domains agreeing with `dom` on the network and containing `x₀` everywhere. -/
theorem exists_total_dom {dom : V → List S} {nodes : List (Node V S K)}
    (hd : ∀ n ∈ nodes, (dom n.var).Nodup) {x₀ : V → S}
    (hx₀ : ∀ v ∈ nodes.map Node.var, x₀ v ∈ dom v) :
    ∃ dom' : V → List S, (∀ v ∈ nodes.map Node.var, dom' v = dom v) ∧
      (∀ v, (dom' v).Nodup) ∧ Valid dom' x₀ := by
  refine ⟨fun v => if v ∈ nodes.map Node.var then dom v else [x₀ v], ?_, ?_, ?_⟩
  · intro v hv; exact if_pos hv
  · intro v
    by_cases hv : v ∈ nodes.map Node.var
    · simp only [hv, if_true]
      obtain ⟨n, hn, rfl⟩ := List.mem_map.1 hv
      exact hd n hn
    · simp [hv]
  · intro v
    by_cases hv : v ∈ nodes.map Node.var
    · simp only [hv, if_true]; exact hx₀ v hv
    · simp [hv]

end

section
variable {V S K : Type} [LinearOrder V] [DecidableEq S] [Field K] [LinearOrder K]
  [IsStrictOrderedRing K]

theorem initPotentials_congr {dom dom' : V → List S} {nodes : List (Node V S K)} {jt : JT V}
    (hv : ∀ i, ∀ v ∈ clq jt.cliques i, v ∈ nodes.map Node.var)
    (h : ∀ v ∈ nodes.map Node.var, dom' v = dom v) (asg : List (ℕ × Node V S K))
    (ev : List (V × S)) : initPotentials dom' jt asg ev = initPotentials dom jt asg ev := by
  have h1 : ∀ i, perms dom' (names (clq jt.cliques i)) = perms dom (names (clq jt.cliques i)) :=
    fun i => perms_congr fun v hvi => h v (hv i v (mem_names.1 hvi))
  have h2 : ∀ e, perms dom' (names (label jt.cliques e)) = perms dom (names (label jt.cliques e)) :=
    fun e => perms_congr fun v hve => h v (hv e.1 v (Finset.mem_inter.1 (mem_names.1 hve)).1)
  simp only [initPotentials, initClique, cliqueTable, h1, h2]

theorem query_dom_congr {nd : Nondet V} (hnd : nd.Legal) {dom dom' : V → List S}
    {nodes : List (Node V S K)} (hw : NodesWF nodes)
    (h : ∀ v ∈ nodes.map Node.var, dom' v = dom v) (ev : List (V × S)) :
    query nd dom' nodes ev = query nd dom nodes ev := by
  unfold query
  rw [validateKeyvals_congr h]
  cases validateKeyvals dom nodes ev with
  | error e => rfl
  | ok u =>
    simp only [bind, Except.bind]
    cases hjt : buildJoinTree nd nodes with
    | error e => rfl
    | ok jt =>
      have ht := buildJoinTree_facts hnd hw hjt
      simp only []
      cases assignClusters jt nodes with
      | error e => rfl
      | ok asg =>
        simp only []
        rw [initPotentials_congr ht.vars h]

end

end Verif.BBN
