import Verif.BBN.Answer

/-!
# `get_original_factors` finds a topological order of the network
-/

namespace Verif.BBN
open Function

section
variable {V S K : Type} [LinearOrder V]

/-- Every node comes after the nodes of its arguments. -/
def Topo : List (Node V S K) → Prop
  | l => ∀ l₁ n l₂, l = l₁ ++ n :: l₂ → ∀ a ∈ n.args, a = n.var ∨ a ∈ l₁.map Node.var

theorem Topo.nil : Topo ([] : List (Node V S K)) := by
  intro l₁ n l₂ h
  simp at h

theorem Topo.snoc {l : List (Node V S K)} (h : Topo l) {n : Node V S K}
    (hn : ∀ a ∈ n.args, a = n.var ∨ a ∈ l.map Node.var) : Topo (l ++ [n]) := by
  intro l₁ m l₂ heq a ha
  rcases List.eq_nil_or_concat l₂ with rfl | ⟨l₂', k, rfl⟩
  · have := List.append_inj' (s₁ := l) (s₂ := l₁) (t₁ := [n]) (t₂ := [m]) heq rfl
    obtain ⟨rfl, h2⟩ := this
    simp only [List.cons.injEq, and_true] at h2
    subst h2
    exact hn a ha
  · have h2 : l ++ [n] = (l₁ ++ m :: l₂') ++ [k] := by simp [heq]
    have := List.append_inj' h2 rfl
    exact h l₁ m l₂' this.1 a ha

theorem Topo.init {l : List (Node V S K)} {n : Node V S K} (h : Topo (l ++ [n])) : Topo l := by
  intro l₁ m l₂ heq
  exact h l₁ m (l₂ ++ [n]) (by simp [heq])

/-- State of the search: accepted nodes are nodes of the network, in topological order. -/
structure OInv (nodes acc : List (Node V S K)) : Prop where
  sub : ∀ n ∈ acc, n ∈ nodes
  nodup : (acc.map Node.var).Nodup
  topo : Topo acc

theorem OInv.closed {nodes acc : List (Node V S K)} (h : OInv nodes acc) :
    ∀ n ∈ acc, ∀ a ∈ n.args, a ∈ acc.map Node.var := by
  intro n hn a ha
  obtain ⟨l₁, l₂, rfl⟩ := List.append_of_mem hn
  rcases h.topo l₁ n l₂ rfl a ha with rfl | h'
  · simp
  · rw [List.map_append]; exact List.mem_append_left _ h'

theorem eq_of_var {nodes : List (Node V S K)} (hw : (nodes.map Node.var).Nodup)
    {m n : Node V S K} (hm : m ∈ nodes) (hn : n ∈ nodes) (h : m.var = n.var) : m = n :=
  List.inj_on_of_nodup_map hw hm hn h

/-- The body of one sweep. -/
def sweep (acc : List (Node V S K)) (f : Factor V S K) : List (Node V S K) :=
  match f.args.filter (fun a => a ∉ acc.map Node.var) with
  | [a] => acc ++ [⟨f, a⟩]
  | _ => acc

theorem sweep_spec {nodes acc : List (Node V S K)} (hw : NodesWF nodes) (h : OInv nodes acc)
    {n : Node V S K} (hn : n ∈ nodes) :
    (sweep acc n.toFactor = acc ∨ (n.var ∉ acc.map Node.var ∧
      sweep acc n.toFactor = acc ++ [n] ∧ OInv nodes (acc ++ [n]))) ∧
    ((∀ a ∈ n.args, a = n.var ∨ a ∈ acc.map Node.var) →
      n.var ∈ (sweep acc n.toFactor).map Node.var) := by
  by_cases hv : n.var ∈ acc.map Node.var
  · have hnacc : n ∈ acc := by
      obtain ⟨m, hm, hmv⟩ := List.mem_map.1 hv
      rw [← eq_of_var hw.nodup (h.sub m hm) hn hmv]
      exact hm
    have hf : n.args.filter (fun a => a ∉ acc.map Node.var) = [] := by
      rw [List.filter_eq_nil_iff]
      intro a ha
      simpa using h.closed n hnacc a ha
    have hs : sweep acc n.toFactor = acc := by simp only [sweep, hf]
    rw [hs]
    exact ⟨Or.inl rfl, fun _ => hv⟩
  · have hmem : n.var ∈ n.args.filter (fun a => a ∉ acc.map Node.var) :=
      List.mem_filter.2 ⟨hw.var_mem n hn, by simpa using hv⟩
    constructor
    · match hf : n.args.filter (fun a => a ∉ acc.map Node.var) with
      | [] => rw [hf] at hmem; simp at hmem
      | [a] =>
        right
        rw [hf, List.mem_singleton] at hmem
        have hs : sweep acc n.toFactor = acc ++ [n] := by
          simp only [sweep, hf, ← hmem]
        have hargs : ∀ b ∈ n.args, b = n.var ∨ b ∈ acc.map Node.var := by
          intro b hb
          by_cases hb' : b ∈ acc.map Node.var
          · exact Or.inr hb'
          · have : b ∈ n.args.filter (fun a => a ∉ acc.map Node.var) :=
              List.mem_filter.2 ⟨hb, by simpa using hb'⟩
            rw [hf, List.mem_singleton] at this
            exact Or.inl (this.trans hmem.symm)
        refine ⟨hv, hs, ?_, ?_, h.topo.snoc hargs⟩
        · intro m hm
          rcases List.mem_append.1 hm with hm | hm
          · exact h.sub m hm
          · rw [List.mem_singleton] at hm; rw [hm]; exact hn
        · rw [List.map_append, List.nodup_append]
          refine ⟨h.nodup, by simp, ?_⟩
          rintro x hx y hy rfl
          simp only [List.map_cons, List.map_nil, List.mem_singleton] at hy
          exact hv (hy ▸ hx)
      | a :: b :: l =>
        left
        simp only [sweep, hf]
    · intro hargs
      have hall : ∀ a ∈ n.args.filter (fun a => a ∉ acc.map Node.var), a = n.var := by
        intro a ha
        rw [List.mem_filter] at ha
        have h2 : a ∉ acc.map Node.var := by simpa using ha.2
        exact (hargs a ha.1).resolve_right h2
      have hnd := (hw.args_nodup n hn).filter (fun a => decide (a ∉ acc.map Node.var))
      have hf : n.args.filter (fun a => a ∉ acc.map Node.var) = [n.var] := by
        match hf : n.args.filter (fun a => a ∉ acc.map Node.var) with
        | [] => rw [hf] at hmem; simp at hmem
        | [a] => rw [hf] at hall; rw [hall a (by simp)]
        | a :: b :: l =>
          rw [hf] at hall hnd
          have h1 := hall a (by simp)
          have h2 := hall b (by simp)
          rw [List.nodup_cons] at hnd
          exact absurd (by simp [h1, h2]) hnd.1
      simp only [sweep, hf]
      simp

theorem pass_spec {nodes : List (Node V S K)} (hw : NodesWF nodes) :
    ∀ (l : List (Node V S K)) (acc : List (Node V S K)), (∀ n ∈ l, n ∈ nodes) →
      OInv nodes acc →
      OInv nodes (originalPass (l.map Node.toFactor) acc) ∧
      (∀ v ∈ acc.map Node.var, v ∈ (originalPass (l.map Node.toFactor) acc).map Node.var) ∧
      (∀ n ∈ l, (∀ a ∈ n.args, a = n.var ∨ a ∈ acc.map Node.var) →
        n.var ∈ (originalPass (l.map Node.toFactor) acc).map Node.var)
  | [], acc, _, h => ⟨h, fun _ hv => hv, by simp⟩
  | m :: l, acc, hl, h => by
    have hm := hl m List.mem_cons_self
    have hs := sweep_spec hw h hm
    have heq : originalPass ((m :: l).map Node.toFactor) acc =
        originalPass (l.map Node.toFactor) (sweep acc m.toFactor) := rfl
    have hacc' : OInv nodes (sweep acc m.toFactor) ∧
        ∀ v ∈ acc.map Node.var, v ∈ (sweep acc m.toFactor).map Node.var := by
      rcases hs.1 with h1 | ⟨_, h1, h2⟩
      · rw [h1]; exact ⟨h, fun _ hv => hv⟩
      · rw [h1]
        exact ⟨h2, fun v hv => by rw [List.map_append]; exact List.mem_append_left _ hv⟩
    obtain ⟨h1, h2, h3⟩ := pass_spec hw l (sweep acc m.toFactor)
      (fun n hn => hl n (List.mem_cons_of_mem _ hn)) hacc'.1
    rw [heq]
    refine ⟨h1, fun v hv => h2 v (hacc'.2 v hv), ?_⟩
    intro n hn hargs
    rcases List.mem_cons.1 hn with rfl | hn
    · exact h2 _ (hs.2 hargs)
    · exact h3 n hn fun a ha => (hargs a ha).imp id (hacc'.2 a)

theorem OInv.length_le {nodes acc : List (Node V S K)} (h : OInv nodes acc) :
    acc.length ≤ nodes.length := by
  have hnd : acc.Nodup := List.Nodup.of_map _ h.nodup
  exact (List.subperm_of_subset hnd h.sub).length_le

theorem OInv.perm {nodes acc : List (Node V S K)} (h : OInv nodes acc)
    (hl : nodes.length ≤ acc.length) : acc.Perm nodes := by
  have hnd : acc.Nodup := List.Nodup.of_map _ h.nodup
  exact (List.subperm_of_subset hnd h.sub).perm_of_length_le hl

/-- In an acyclic network some remaining node has all its parents accounted for. -/
theorem exists_ready {nodes acc : List (Node V S K)} (hw : NodesWF nodes)
    (hac : Graph.Acyclic (arrows nodes)) (h : OInv nodes acc) (hl : acc.length < nodes.length) :
    ∃ n ∈ nodes, n.var ∉ acc.map Node.var ∧
      ∀ a ∈ n.args, a = n.var ∨ a ∈ acc.map Node.var := by
  by_contra hcon
  push Not at hcon
  let L := (nodes.map Node.var).filter fun v => v ∉ acc.map Node.var
  have hLne : L ≠ [] := by
    intro hL
    have hsub : ∀ v ∈ nodes.map Node.var, v ∈ acc.map Node.var := by
      intro v hv
      by_contra hc
      have : v ∈ L := List.mem_filter.2 ⟨hv, by simpa using hc⟩
      rw [hL] at this
      simp at this
    have := (List.subperm_of_subset hw.nodup hsub).length_le
    simp at this
    omega
  obtain ⟨v, hv⟩ := Graph.exists_cycle_of_pred (R := Graph.EdgeRel (arrows nodes)) L hLne (by
    intro v hv
    rw [List.mem_filter] at hv
    obtain ⟨n, hn, rfl⟩ := List.mem_map.1 hv.1
    have hnv : n.var ∉ acc.map Node.var := by simpa using hv.2
    obtain ⟨a, ha, hav, haa⟩ := hcon n hn hnv
    refine ⟨a, List.mem_filter.2 ⟨hw.args_sub n hn a ha, by simpa using haa⟩, ?_⟩
    exact link_arrows.2 ⟨n, hn, rfl, ha, hav⟩)
  exact hac v hv

theorem originalLoop_spec {nodes : List (Node V S K)} (hw : NodesWF nodes)
    (hac : Graph.Acyclic (arrows nodes)) : ∀ (fuel : ℕ) (acc : List (Node V S K)),
    OInv nodes acc → nodes.length ≤ fuel + acc.length →
    ∃ res, originalLoop (nodes.map Node.toFactor) fuel acc = .ok res ∧ OInv nodes res ∧
      res.Perm nodes
  | 0, acc, h, hf => by
    have hlt : ¬ acc.length < (nodes.map Node.toFactor).length := by
      rw [List.length_map]; omega
    exact ⟨acc, by simp only [originalLoop, hlt, if_false], h, h.perm (by omega)⟩
  | fuel + 1, acc, h, hf => by
    by_cases hlt : acc.length < (nodes.map Node.toFactor).length
    · have hlt' : acc.length < nodes.length := by rwa [List.length_map] at hlt
      obtain ⟨h1, h2, h3⟩ := pass_spec hw nodes acc (fun _ h => h) h
      obtain ⟨n, hn, hnv, hargs⟩ := exists_ready hw hac h hlt'
      have hgrow : acc.length < (originalPass (nodes.map Node.toFactor) acc).length := by
        have hsub : ∀ v ∈ n.var :: acc.map Node.var,
            v ∈ (originalPass (nodes.map Node.toFactor) acc).map Node.var := by
          intro v hv
          rcases List.mem_cons.1 hv with rfl | hv
          · exact h3 n hn hargs
          · exact h2 v hv
        have := (List.subperm_of_subset (List.nodup_cons.2 ⟨hnv, h.nodup⟩) hsub).length_le
        simp only [List.length_cons, List.length_map] at this
        omega
      have hne : (originalPass (nodes.map Node.toFactor) acc).length ≠ acc.length := by omega
      obtain ⟨res, hr, hi, hp⟩ := originalLoop_spec hw hac fuel _ h1 (by omega)
      exact ⟨res, by simp only [originalLoop, hlt, if_true, hne, if_false]; exact hr, hi, hp⟩
    · have hle : nodes.length ≤ acc.length := by
        rw [List.length_map] at hlt; omega
      exact ⟨acc, by simp only [originalLoop, hlt, if_false], h, h.perm hle⟩

/-- For an acyclic network, in any listing order and with any argument order, the search ends and
returns exactly the nodes of the network, parents first. -/
theorem getOriginalFactors_spec {nodes : List (Node V S K)} (hw : NodesWF nodes)
    (hac : Graph.Acyclic (arrows nodes)) :
    ∃ res, getOriginalFactors (nodes.map Node.toFactor) = .ok res ∧ res.Perm nodes ∧
      Topo res := by
  obtain ⟨res, h1, h2, h3⟩ := originalLoop_spec hw hac (nodes.map Node.toFactor).length []
    ⟨by simp, by simp, Topo.nil⟩ (by simp)
  exact ⟨res, h1, h3, h2.topo⟩

theorem NodesWF.perm {l l' : List (Node V S K)} (h : NodesWF l) (hp : l.Perm l') : NodesWF l' where
  nodup := (hp.map Node.var).nodup_iff.1 h.nodup
  var_mem := fun n hn => h.var_mem n (hp.mem_iff.2 hn)
  args_nodup := fun n hn => h.args_nodup n (hp.mem_iff.2 hn)
  args_sub := fun n hn a ha => (hp.map Node.var).mem_iff.1 (h.args_sub n (hp.mem_iff.2 hn) a ha)

end

section
variable {V S K : Type} [LinearOrder V] [DecidableEq S] [Field K] [LinearOrder K]
  [IsStrictOrderedRing K]

theorem joint_perm {l l' : List (Node V S K)} (hp : l.Perm l') (x : V → S) :
    joint l x = joint l' x := (hp.map _).prod_eq

theorem massOf_perm {dom : V → List S} {l l' : List (Node V S K)} (hp : l.Perm l') (x₀ : V → S)
    (A : (V → S) → Prop) [DecidablePred A] : massOf dom l x₀ A = massOf dom l' x₀ A := by
  rw [massOf_eq_sumOver, massOf_eq_sumOver, sumOver_perm dom (hp.map Node.var)]
  apply sumOver_congr
  intro x
  rw [joint_perm hp]

/-- Summing the joint of a topologically ordered network over all variables gives one. -/
theorem sumOver_joint_topo {dom : V → List S} (l : List (Node V S K)) (ht : Topo l)
    (hn : Normalised dom l) (hnd : (l.map Node.var).Nodup) {x : V → S} (hx : Valid dom x) :
    sumOver dom (l.map Node.var) (joint l) x = 1 := by
  induction l using List.reverseRecOn generalizing x with
  | nil => simp [sumOver, joint]
  | append_singleton l n ih =>
    rw [List.map_append, List.nodup_append] at hnd
    have hnot : n.var ∉ l.map Node.var := fun h => hnd.2.2 _ h _ (by simp) rfl
    have hn1 : Normalised dom l := fun m hm => hn m (List.mem_append_left _ hm)
    rw [List.map_append, sumOver_append]
    rw [← ih ht.init hn1 hnd.1 hx]
    apply sumOver_congr_valid dom _ hx
    intro y hy
    have hdep : DependsOn (joint l) {v | v ∈ l.map Node.var} := by
      intro a b hab
      unfold joint
      congr 1
      apply List.map_congr_left
      intro m hm
      congr 1
      apply List.map_congr_left
      intro c hc
      apply hab
      obtain ⟨l₁, l₂, rfl⟩ := List.append_of_mem hm
      rcases ht.init l₁ m l₂ rfl c hc with rfl | h
      · simp
      · simp only [Set.mem_setOf_eq, List.map_append]
        exact List.mem_append_left _ h
    have hj : ∀ z, joint (l ++ [n]) z = joint l z * n.fn (n.args.map z) := by
      intro z
      simp [joint]
    rw [sumOver_congr dom hj]
    rw [sumOver_mul_left dom (g := joint l) hdep
      (by
        intro v hv
        simp only [List.map_cons, List.map_nil, List.mem_singleton] at hv
        rw [hv]; exact hnot)]
    have := hn n (by simp) y fun a _ _ => hy a
    simp only [List.map_cons, List.map_nil, sumOver]
    rw [this, mul_one]

/-- The joint distribution of an acyclic network with normalised tables has total mass one. -/
theorem massOf_total {dom : V → List S} {nodes : List (Node V S K)} (hw : NodesWF nodes)
    (hac : Graph.Acyclic (arrows nodes)) (hn : Normalised dom nodes) {x₀ : V → S}
    (hx : Valid dom x₀) : massOf dom nodes x₀ (fun _ => True) = 1 := by
  obtain ⟨res, _, hp, ht⟩ := getOriginalFactors_spec hw hac
  rw [massOf_perm hp.symm, massOf_eq_sumOver]
  rw [← sumOver_joint_topo res ht (fun n hn' => hn n (hp.mem_iff.1 hn'))
    ((hp.map Node.var).nodup_iff.2 hw.nodup) hx]
  apply sumOver_congr
  intro x
  simp

end

end Verif.BBN
