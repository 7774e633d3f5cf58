import Verif.BBN.Local

/-!
# Summing out the variables outside a set closed under parents
-/

namespace Verif.BBN
open Function

section
variable {V S K : Type} [LinearOrder V] [DecidableEq S] [Field K] [LinearOrder K]
  [IsStrictOrderedRing K]

omit [DecidableEq S] in
/-- The factors of the nodes outside `P` sum to one. -/
theorem sumOver_outside {dom : V → List S} (P : V → Prop) [DecidablePred P]
    (l : List (Node V S K)) (ht : Topo l) (hn : Normalised dom l) (hnd : (l.map Node.var).Nodup)
    {f : (V → S) → K} (hf : DependsOn f {v | P v}) {x : V → S} (hx : Valid dom x) :
    sumOver dom ((l.filter fun n => ¬ P n.var).map Node.var)
      (fun y => f y * joint (l.filter fun n => ¬ P n.var) y) x = f x := by
  induction l using List.reverseRecOn generalizing x with
  | nil => simp [sumOver, joint]
  | append_singleton l n ih =>
    rw [List.map_append, List.nodup_append] at hnd
    have hnot : n.var ∉ l.map Node.var := fun h => hnd.2.2 _ h _ (by simp) rfl
    have hn1 : Normalised dom l := fun m hm => hn m (List.mem_append_left _ hm)
    by_cases hp : P n.var
    · have hfil : ((l ++ [n]).filter fun n => ¬ P n.var) = l.filter fun n => ¬ P n.var := by
        simp [List.filter_append, hp]
      rw [hfil]
      exact ih ht.init hn1 hnd.1 hx
    · have hfil : ((l ++ [n]).filter fun n => ¬ P n.var) =
          (l.filter fun n => ¬ P n.var) ++ [n] := by
        simp [List.filter_append, hp]
      rw [hfil, List.map_append, sumOver_append, ← ih ht.init hn1 hnd.1 hx]
      apply sumOver_congr_valid dom _ hx
      intro y hy
      have hdep : DependsOn (fun y => f y * joint (l.filter fun n => ¬ P n.var) y)
          {v | P v ∨ v ∈ l.map Node.var} := by
        intro a b hab
        dsimp only
        congr 1
        · exact hf fun v hv => hab v (Or.inl hv)
        · unfold joint
          congr 1
          apply List.map_congr_left
          intro m hm
          congr 1
          apply List.map_congr_left
          intro c hc
          apply hab
          obtain ⟨l₁, l₂, rfl⟩ := List.append_of_mem (List.mem_filter.1 hm).1
          rcases ht.init l₁ m l₂ rfl c hc with rfl | h
          · exact Or.inr (by simp)
          · refine Or.inr ?_
            rw [List.map_append]
            exact List.mem_append_left _ h
      have hj : ∀ z, f z * joint ((l.filter fun n => ¬ P n.var) ++ [n]) z =
          (f z * joint (l.filter fun n => ¬ P n.var) z) * n.fn (n.args.map z) := by
        intro z
        simp [joint, mul_assoc]
      rw [sumOver_congr dom hj]
      rw [sumOver_mul_left dom hdep
        (by
          intro v hv
          simp only [List.map_cons, List.map_nil, List.mem_singleton] at hv
          rw [hv]
          rintro (h | h)
          · exact hp h
          · exact hnot h)]
      have := hn n (by simp) y fun a _ _ => hy a
      simp only [List.map_cons, List.map_nil, sumOver]
      rw [this, mul_one]

/-- An event that only looks at a set of variables closed under parents has the probability it has
in the subnetwork on that set. -/
theorem massOf_ancestral_aux {dom : V → List S} {nodes : List (Node V S K)} (hw : NodesWF nodes)
    (hac : Graph.Acyclic (arrows nodes)) (hn : Normalised dom nodes) {x₀ : V → S}
    (hx : Valid dom x₀) (P : V → Prop) [DecidablePred P]
    (hP : ∀ n ∈ nodes, P n.var → ∀ a ∈ n.args, P a) (A : (V → S) → Prop) [DecidablePred A]
    (hA : ∀ x y : V → S, (∀ v, P v → x v = y v) → (A x ↔ A y)) :
    massOf dom nodes x₀ A = massOf dom (nodes.filter fun n => P n.var) x₀ A := by
  obtain ⟨res, _, hp, ht⟩ := getOriginalFactors_spec hw hac
  rw [massOf_perm hp.symm, massOf_perm (hp.filter _).symm]
  have hP' : ∀ n ∈ res, P n.var → ∀ a ∈ n.args, P a := fun n h => hP n (hp.mem_iff.1 h)
  have hn' : Normalised dom res := fun n h => hn n (hp.mem_iff.1 h)
  have hnd : (res.map Node.var).Nodup := (hp.map Node.var).nodup_iff.2 hw.nodup
  have hsplit : res.Perm ((res.filter fun n => P n.var) ++ res.filter fun n => ¬ P n.var) := by
    have := List.filter_append_perm (fun n : Node V S K => decide (P n.var)) res
    refine this.symm.trans ?_
    apply List.Perm.of_eq
    congr 1
    apply List.filter_congr
    intro n _
    simp
  rw [massOf_perm hsplit, massOf_eq_sumOver, massOf_eq_sumOver, List.map_append, sumOver_append]
  apply sumOver_congr_valid dom _ hx
  intro y hy
  have hdep : DependsOn (fun x => if A x then joint (res.filter fun n => P n.var) x else 0)
      {v | P v} := by
    intro a b hab
    dsimp only
    have h1 : A a ↔ A b := hA a b fun v hv => hab v hv
    have h2 : joint (res.filter fun n => P n.var) a = joint (res.filter fun n => P n.var) b := by
      unfold joint
      congr 1
      apply List.map_congr_left
      intro m hm
      congr 1
      apply List.map_congr_left
      intro c hc
      obtain ⟨hm1, hm2⟩ := List.mem_filter.1 hm
      exact hab c (hP' m hm1 (of_decide_eq_true hm2) c hc)
    simp only [h1, h2]
  have := sumOver_outside P res ht hn' hnd hdep hy
  rw [← this]
  apply sumOver_congr
  intro z
  by_cases hz : A z
  · simp [hz, joint]
  · simp [hz]

theorem massOf_ancestral {dom : V → List S} {nodes : List (Node V S K)} (hw : NodesWF nodes)
    (hac : Graph.Acyclic (arrows nodes)) (hnd : ∀ n ∈ nodes, (dom n.var).Nodup)
    (hn : Normalised dom nodes) {x₀ : V → S}
    (hx₀ : ∀ v ∈ nodes.map Node.var, x₀ v ∈ dom v) (P : V → Prop) [DecidablePred P]
    (hP : ∀ n ∈ nodes, P n.var → ∀ a ∈ n.args, P a) (A : (V → S) → Prop) [DecidablePred A]
    (hA : ∀ x y : V → S, (∀ v, P v → x v = y v) → (A x ↔ A y)) :
    massOf dom nodes x₀ A = massOf dom (nodes.filter fun n => P n.var) x₀ A := by
  obtain ⟨dom', h, hd, hx⟩ := exists_total_dom hnd hx₀
  have hn' : Normalised dom' nodes := fun n hn' x hx' => by
    rw [h _ (List.mem_map_of_mem hn')]
    exact hn n hn' x fun a ha hav => by
      rw [← h a (hw.args_sub n hn' a ha)]; exact hx' a ha hav
  have := massOf_ancestral_aux hw hac hn' hx P hP A hA
  rw [massOf_dom_congr h] at this
  rw [this]
  apply massOf_dom_congr
  intro v hv
  apply h
  obtain ⟨n, hn, rfl⟩ := List.mem_map.1 hv
  exact List.mem_map_of_mem (List.mem_filter.1 hn).1

end

end Verif.BBN
