import Verif.Network.FitDo
import Verif.Network.ScoresWitness

/-!
# C148, C149: concrete cases
-/

namespace Verif.Network.EquivalentWitness

open Verif.Network.Witness (int int_injective)
open Verif.Graph (Linked Collider Equivalent EdgeRel)

/-- No colliders: the parents of each node are linked. -/
theorem no_collider {E : List (ℕ × ℕ)} (hE : ∀ p ∈ E, ∀ q ∈ E, p.2 = q.2 → p.1 ≠ q.1 → (p.1, q.1) ∈ E ∨ (q.1, p.1) ∈ E) (a c b : ℕ) :
    ¬ Collider (EdgeRel E) a c b := by
  rintro ⟨h1, h2, h3, h4⟩
  exact h4 (hE _ h1 _ h2 rfl h3)

theorem up_filled : Equivalent (EdgeRel up) (EdgeRel filled) where
  links := by
    intro a b
    simp [Linked, EdgeRel, up, filled]
    omega
  colliders := by
    intro a c b
    exact iff_of_false (no_collider (by decide) a c b) (no_collider (by decide) a c b)

/-- The structures `up` and `filled` differ in the direction of the edge between 1 and 2.  The node 0 has the same parents in both, none.  The hypotheses
of `equivalent_interventions` can be met: interventions on 0 give the same answers. -/
example : (∀ u, (u, 0) ∈ up ↔ (u, 0) ∈ filled) ∧ ¬ (∀ u, (u, 1) ∈ up ↔ (u, 1) ∈ filled) ∧
    ∃ tables tables₂ e e₂, cpds (fitCpds int (netOf up [5, 7]) [df] 0 {}).1 = .ok tables ∧
      cpds (fitCpds int (netOf filled [5, 7]) [df] 0 {}).1 = .ok tables₂ ∧ BBN.Engine.create (fun _ => true) (framesOf tables) = .ok e ∧
      BBN.Engine.create (fun _ => true) (framesOf tables₂) = .ok e₂ ∧
      ∀ d : BBN.Dist ℚ ℚ, ((e₂.doIntervention 0 (.dist d)).2 = (e.doIntervention 0 (.dist d)).2) ∧
        ∀ ev : List (ℕ × ℚ), (ev.map Prod.fst).Nodup →
          (∃ out out₂, (e.doIntervention 0 (.dist d)).1.query BBN.exNd ev = .ok out ∧ (e₂.doIntervention 0 (.dist d)).1.query BBN.exNd ev = .ok out₂ ∧
            BBN.SameAnswer id (fun _ => id) out out₂) ∨
          (∃ err, (e.doIntervention 0 (.dist d)).1.query BBN.exNd ev = .error err) ∧
            ∃ err, (e₂.doIntervention 0 (.dist d)).1.query BBN.exNd ev = .error err := by
  have h0 : ∀ u, (u, 0) ∈ up ↔ (u, 0) ∈ filled := by simp [up, filled]
  refine ⟨h0, fun h => ?_, ?_⟩
  · have := (h 2).2 (by decide)
    simp [up] at this
  have hok : (fitCpds int (netOf up [5, 7]) [df] 0 {}).2.2 = .ok () := by decide +kernel
  have hok₂ : (fitCpds int (netOf filled [5, 7]) [df] 0 {}).2.2 = .ok () := by decide +kernel
  obtain ⟨tables, tables₂, e, e₂, c1, c2, c3, c4, c5⟩ := equivalent_interventions int_injective (structure_of (E := up) (by simp)) (by decide)
    filled_structure (reach_of (E := up) (by simp) (Or.inl rfl)) filled_reach up_filled (by decide +kernel) (by decide +kernel) (h := [df]) (h₂ := [df])
    (ref := 0) (ref₂ := 0) (df := df) (a := {}) rfl rfl (by simp) (Or.inl rfl)
    (net' := (fitCpds int (netOf up [5, 7]) [df] 0 {}).1) (net₂' := (fitCpds int (netOf filled [5, 7]) [df] 0 {}).1)
    (h' := (fitCpds int (netOf up [5, 7]) [df] 0 {}).2.1) (h₂' := (fitCpds int (netOf filled [5, 7]) [df] 0 {}).2.1)
    (by rw [← hok]) (by rw [← hok₂]) (okName := fun _ => true) (okName₂ := fun _ => true) (by simp) (by simp) BBN.exNd_legal BBN.exNd_legal
  refine ⟨tables, tables₂, e, e₂, c1, c2, c3, c4, fun d => ⟨(c5 [] (by simp)).1 0 (.dist d) h0, (c5 [.doIt 0 (.dist d)] ?_).2.2⟩⟩
  intro v d' hm
  simp only [List.mem_singleton, BBN.Op.doIt.injEq] at hm
  rw [hm.1]
  exact h0

/-- `0 ← 1`, with `1 → 2` and `0 → 2`. -/
def turned : List (ℕ × ℕ) := [(1, 0), (1, 2), (0, 2)]

theorem turned_structure : IsStructure [0, 1, 2] turned := ⟨by decide, by decide, by decide⟩

theorem turned_reach : Reach int [0, 1, 2] turned (netOf turned [5, 7]) := by
  have hinit : (init [0, 1, 2] turned : Except Err (Net ℕ ℚ ℚ)) = .ok ⟨nodesOfEdges turned, turned, none, []⟩ := by
    unfold init
    rw [show (Graph.weakComponents _ _).length = 1 by decide, show Graph.isDag _ _ = true by decide]
    rfl
  exact .states (.init hinit) (dict := dict [5, 7]) (by decide) (by decide +kernel) rfl

theorem up_turned : Equivalent (EdgeRel up) (EdgeRel turned) where
  links := by
    intro a b
    simp [Linked, EdgeRel, up, turned]
    omega
  colliders := by
    intro a c b
    exact iff_of_false (no_collider (by decide) a c b) (no_collider (by decide) a c b)

/-- The network can be fitted to the data, an engine can be created, the calls are accepted, and then it gives the state `s` of `v` the probability `p`. -/
def DoAnswer (E : List (ℕ × ℕ)) (acts : List (ℕ × Option (BBN.Dist ℚ ℚ))) (v : ℕ) (s p : ℚ) : Prop :=
  ∃ tables e e' out, (fitCpds int (netOf E [5, 7]) [df] 0 {}).2.2 = .ok () ∧ cpds (fitCpds int (netOf E [5, 7]) [df] 0 {}).1 = .ok tables ∧
    BBN.Engine.create (fun _ => true) (framesOf tables) = .ok e ∧ Acts e acts e' ∧ e'.query BBN.exNd [] = .ok out ∧ BBN.Gives out v s p

/-- The state 5, as a distribution. -/
def five : BBN.Dist ℚ ℚ := ⟨{5, 7}, fun s => if s = 5 then 1 else 0⟩

theorem doAnswer {E : List (ℕ × ℕ)} (hE : IsStructure [0, 1, 2] E) (hr : Reach int [0, 1, 2] E (netOf E [5, 7])) (hne : E ≠ [])
    (hok : (fitCpds int (netOf E [5, 7]) [df] 0 {}).2.2 = .ok ()) {par : ℕ → List ℕ} (hpar : ∀ v, IsParentList E v (par v)) {v : ℕ} {s p : ℚ}
    (hv : v ∈ (netOf E [5, 7]).nodes) (hs : s ∈ statesOf (netOf E [5, 7]) v)
    (hx : ∀ v ∈ (netOf E [5, 7]).nodes, (5 : ℚ) ∈ statesOf (netOf E [5, 7]) v) {u w : ℕ} (huw : (u, w) ∈ E) (hu : u ∈ (netOf E [5, 7]).nodes)
    (hst : (statesOf (netOf E [5, 7]) u).toFinset = {5, 7})
    (hconn : ∀ a ∈ (netOf E [5, 7]).nodes, ∀ b ∈ (netOf E [5, 7]).nodes, Graph.WConn (Left (inForce [(u, some five)]) E) a b)
    (hm : doMass (inForce [(u, some five)]) ({} : FitArgs ℚ) (netOf E [5, 7]) df par (fun _ => 5) (fun x => x v = s) = p) :
    DoAnswer E [(u, some five)] v s p := by
  have hf : fitCpds int (netOf E [5, 7]) [df] 0 {} = ((fitCpds int (netOf E [5, 7]) [df] 0 {}).1, (fitCpds int (netOf E [5, 7]) [df] 0 {}).2.1, .ok ()) := by
    rw [← hok]
  obtain ⟨tables, e, h1, h2, h3⟩ := fit_then_do int_injective hE hne hr (fun v hv e => by have := hx v hv; rw [e] at this; simp at this) (df := df) rfl
    (by simp) hf (fun v _ => hpar v) BBN.exNd_legal (okName := fun _ => true) (fun _ _ => rfl) (x₀ := fun _ => 5) hx
  obtain ⟨h4, h5⟩ := h3 [(u, some five)]
  obtain ⟨e', he'⟩ := h4.2 (by
    intro b v o r hb
    rcases List.cons_eq_append_iff.1 hb with ⟨rfl, hb'⟩ | ⟨b', rfl, hb'⟩
    · cases hb'
      refine ⟨hu, fun d hd => ?_⟩
      cases hd
      refine ⟨⟨hst.symm, ?_, ?_⟩, w, huw, rfl⟩
      · decide +kernel
      · decide +kernel
    · simp at hb')
  obtain ⟨t1, h6⟩ := (h5 e' he').1 hconn
  have t2 : doMass (inForce [(u, some five)]) ({} : FitArgs ℚ) (netOf E [5, 7]) df par (fun _ => 5) (BBN.Agrees []) = 1 := by
    rw [← t1]
    unfold doMass BBN.massWith
    simp [BBN.Agrees]
  obtain ⟨out, ho, hrep⟩ := h6 [] (by simp) (by simp) (by rw [t2]; exact one_pos)
  refine ⟨tables, e, e', out, hok, h1, h2, he', ho, ?_⟩
  have := hrep.gives hv hs
  rw [t2, div_one] at this
  rw [← hm]
  have e : doMass (inForce [(u, some five)]) ({} : FitArgs ℚ) (netOf E [5, 7]) df par (fun _ => 5) (fun x => x v = s) =
      doMass (inForce [(u, some five)]) ({} : FitArgs ℚ) (netOf E [5, 7]) df par (fun _ => 5) (fun x => BBN.Agrees [] x ∧ x v = s) := by
    unfold doMass BBN.massWith
    simp [BBN.Agrees]
  rw [e]
  exact this

theorem connected_hub {E : List (ℕ × ℕ)} {ns : List ℕ} (hns : ∀ a ∈ ns, a = 0 ∨ a = 1 ∨ a = 2) (h0 : Graph.Link E 2 0) (h1 : Graph.Link E 2 1) :
    ∀ a ∈ ns, ∀ b ∈ ns, Graph.WConn E a b := by
  have hto : ∀ a ∈ ns, Graph.WConn E 2 a := by
    intro a ha
    rcases hns a ha with rfl | rfl | rfl
    · exact .single h0
    · exact .single h1
    · exact .refl
  have sym : ∀ a b, Graph.Link E a b → Graph.Link E b a := fun a b h => h.symm
  have hfrom : ∀ a ∈ ns, Graph.WConn E a 2 := by
    intro a ha
    rcases hns a ha with rfl | rfl | rfl
    · exact .single (sym _ _ h0)
    · exact .single (sym _ _ h1)
    · exact .refl
  exact fun a ha b hb => (hfrom a ha).trans (hto b hb)

/-- For a node with different parents the answers differ, although the structures are equivalent and the data are the same: after setting the node 1 to the
state 5, the node 0 has the state 5 with probability 3/4 in one network and 1 in the other. -/
theorem interventions_differ : Equivalent (EdgeRel up) (EdgeRel turned) ∧ DoAnswer up [(1, some five)] 0 5 (3 / 4) ∧
    DoAnswer turned [(1, some five)] 0 5 1 := by
  refine ⟨up_turned, doAnswer (structure_of (by simp)) (reach_of (by simp) (Or.inl rfl)) (by decide) (by decide +kernel)
    (par := fun v => if v = 1 then [0] else if v = 2 then [0, 1] else []) ?_ (by decide +kernel) (by decide +kernel) (by decide +kernel) (w := 2)
    (by decide) (by decide +kernel) (by decide +kernel) ?_ (by decide +kernel), doAnswer turned_structure turned_reach (by decide) (by decide +kernel)
    (par := fun v => if v = 0 then [1] else if v = 2 then [0, 1] else []) ?_ (by decide +kernel) (by decide +kernel) (by decide +kernel) (w := 2)
    (by decide) (by decide +kernel) (by decide +kernel) ?_ (by decide +kernel)⟩
  · intro v
    split_ifs <;> simp [IsParentList, up, *]
  · exact connected_hub (by decide +kernel) (by simp [Left, inForce, up, Graph.Link]; rfl) (by simp [Left, inForce, up, Graph.Link]; rfl)
  · intro v
    split_ifs <;> simp [IsParentList, turned, or_comm, *]
  · exact connected_hub (by decide +kernel) (by simp [Left, inForce, turned, Graph.Link]; rfl) (by simp [Left, inForce, turned, Graph.Link]; rfl)

end Verif.Network.EquivalentWitness
