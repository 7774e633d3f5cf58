import Verif.Network.Equivalent
import Verif.Network.Witness

/-!
# C145: concrete cases

The structures `0 → 1 → 2` and `0 ← 1 → 2` are equivalent.  `0 → 1 ← 2` is not.
-/

namespace Verif.Network.EquivalentWitness

open Verif.Network.Witness (int int_injective)
open Verif.Graph (Linked Collider Equivalent EdgeRel)
open Function

/-- `0 → 1 → 2`. -/
def chain : List (ℕ × ℕ) := [(0, 1), (1, 2)]

/-- `0 ← 1 → 2`. -/
def fork : List (ℕ × ℕ) := [(1, 0), (1, 2)]

/-- `0 → 1 ← 2`. -/
def clash : List (ℕ × ℕ) := [(0, 1), (2, 1)]

/-- A row. -/
def row (a b c : ℚ) : ℕ → Option ℚ
  | 0 => some a
  | 1 => some b
  | 2 => some c
  | _ => none

/-- Four rows. -/
def df : DF ℕ ℚ := ⟨[0, 1, 2], [row 5 5 5, row 5 7 7, row 7 7 7, row 5 5 5]⟩

/-- The states, which a user may list in different orders. -/
def dict (l : List ℚ) : List (ℕ × List (Option ℚ)) := [(0, [some 5, some 7]), (1, l.map some), (2, [some 7, some 5])]

/-- The network with a structure, its states set. -/
def netOf (E : List (ℕ × ℕ)) (l : List ℚ) : Net ℕ ℚ ℚ := (setNodeStates ⟨nodesOfEdges E, E, none, []⟩ (dict l)).1

/-- The acyclic structure with all links, and the same in the other direction. -/
def up : List (ℕ × ℕ) := [(0, 1), (0, 2), (1, 2)]

/-- The other direction. -/
def down : List (ℕ × ℕ) := [(2, 1), (2, 0), (1, 0)]

theorem chain_fork : Equivalent (EdgeRel chain) (EdgeRel fork) where
  links := by
    intro a b
    simp [Linked, EdgeRel, chain, fork]
    omega
  colliders := by
    intro a c b
    simp [Collider, Linked, EdgeRel, chain, fork]
    omega

theorem up_down : Equivalent (EdgeRel up) (EdgeRel down) where
  links := by
    intro a b
    simp [Linked, EdgeRel, up, down]
    omega
  colliders := by
    intro a c b
    simp [Collider, Linked, EdgeRel, up, down]
    omega

/-- The collider makes a difference. -/
theorem chain_clash : ¬ Equivalent (EdgeRel chain) (EdgeRel clash) := by
  intro h
  have := (h.colliders 0 1 2).2 (by simp [Collider, Linked, EdgeRel, clash])
  simp [Collider, EdgeRel, chain] at this

theorem structure_of {E : List (ℕ × ℕ)} (hE : E = chain ∨ E = fork ∨ E = up ∨ E = down ∨ E = clash) : IsStructure [0, 1, 2] E := by
  rcases hE with rfl | rfl | rfl | rfl | rfl <;> exact ⟨by decide, by decide, by decide⟩

theorem reach_of {E : List (ℕ × ℕ)} (hE : E = chain ∨ E = fork ∨ E = up ∨ E = down ∨ E = clash) {l : List ℚ} (hl : l = [5, 7] ∨ l = [7, 5]) :
    Reach int [0, 1, 2] E (netOf E l) := by
  have hinit : (init [0, 1, 2] E : Except Err (Net ℕ ℚ ℚ)) = .ok ⟨nodesOfEdges E, E, none, []⟩ := by
    rcases hE with rfl | rfl | rfl | rfl | rfl <;>
    · unfold init
      rw [show (Graph.weakComponents _ _).length = 1 by decide, show Graph.isDag _ _ = true by decide]
      rfl
  refine .states (.init hinit) (dict := dict l) ?_ ?_ rfl
  · rcases hl with rfl | rfl <;> decide
  · rcases hE with rfl | rfl | rfl | rfl | rfl <;> rcases hl with rfl | rfl <;> decide +kernel

/-- The hypotheses of `equivalent_answers` can be met, the states being listed in different orders. -/
example : (∃ v ∈ (netOf up [5, 7]).nodes, statesOf (netOf up [5, 7]) v = [5, 7]) ∧
    ∃ net₂' h₂' tables tables₂ e e₂, fitCpds int (netOf down [7, 5]) [df] 0 {} = (net₂', h₂', .ok ()) ∧
      cpds (fitCpds int (netOf up [5, 7]) [df] 0 {}).1 = .ok tables ∧
      cpds net₂' = .ok tables₂ ∧ BBN.Engine.create (fun _ => true) (framesOf tables) = .ok e ∧
      BBN.Engine.create (fun _ => true) (framesOf tables₂) = .ok e₂ ∧
      ∀ ev : List (ℕ × ℚ), (ev.map Prod.fst).Nodup →
        (∃ out out₂, e.query BBN.exNd ev = .ok out ∧ e₂.query BBN.exNd ev = .ok out₂ ∧ BBN.SameAnswer id (fun _ => id) out out₂) ∨
        (∃ err, e.query BBN.exNd ev = .error err) ∧ ∃ err, e₂.query BBN.exNd ev = .error err := by
  refine ⟨⟨0, by decide +kernel, by decide +kernel⟩, ?_⟩
  have hok : (fitCpds int (netOf up [5, 7]) [df] 0 {}).2.2 = .ok () := by decide +kernel
  refine equivalent_answers int_injective (structure_of (by simp)) (by decide) (structure_of (by simp)) (reach_of (E := up) (by simp) (Or.inl rfl))
    (reach_of (E := down) (by simp) (Or.inr rfl)) up_down (by decide +kernel) (by decide +kernel) (h := [df]) (h₂ := [df]) (ref := 0) (ref₂ := 0) (df := df) rfl rfl (by simp) (Or.inl rfl)
    (h' := (fitCpds int (netOf up [5, 7]) [df] 0 {}).2.1) ?_ (by simp) (by simp) BBN.exNd_legal BBN.exNd_legal
  rw [← hok]

/-- The network can be fitted to the data, an engine can be created, and without evidence it gives the state `s` of `v` the
probability `p`. -/
def FirstAnswer (E : List (ℕ × ℕ)) (a : FitArgs ℚ) (v : ℕ) (s p : ℚ) : Prop :=
  ∃ tables e out, (fitCpds int (netOf E [5, 7]) [df] 0 a).2.2 = .ok () ∧ cpds (fitCpds int (netOf E [5, 7]) [df] 0 a).1 = .ok tables ∧
    BBN.Engine.create (fun _ => true) (framesOf tables) = .ok e ∧ e.query BBN.exNd [] = .ok out ∧ BBN.Gives out v s p

theorem firstAnswer {E : List (ℕ × ℕ)} (hE : E = chain ∨ E = fork ∨ E = up ∨ E = down ∨ E = clash) {a : FitArgs ℚ} (ha : a.ess = none)
    (hok : (fitCpds int (netOf E [5, 7]) [df] 0 a).2.2 = .ok ()) {par : ℕ → List ℕ} (hpar : ∀ v, IsParentList E v (par v)) {v : ℕ} {s p : ℚ}
    (hv : v ∈ (netOf E [5, 7]).nodes) (hs : s ∈ statesOf (netOf E [5, 7]) v)
    (hx : ∀ v ∈ (netOf E [5, 7]).nodes, (5 : ℚ) ∈ statesOf (netOf E [5, 7]) v)
    (hm : dataMass a (netOf E [5, 7]) df par (fun _ => 5) (fun x => x v = s) = p) : FirstAnswer E a v s p := by
  have hf : fitCpds int (netOf E [5, 7]) [df] 0 a = ((fitCpds int (netOf E [5, 7]) [df] 0 a).1, (fitCpds int (netOf E [5, 7]) [df] 0 a).2.1, .ok ()) := by
    rw [← hok]
  obtain ⟨tables, e, h1, h2, h3⟩ := fit_then_query int_injective (structure_of hE) (by rcases hE with rfl | rfl | rfl | rfl | rfl <;> decide)
    (reach_of hE (Or.inl rfl)) (fun v hv e => by have := hx v hv; rw [e] at this; simp at this) (df := df) rfl (by rw [ha]; simp) hf
    (fun v _ => hpar v) BBN.exNd_legal (okName := fun _ => true) (fun _ _ => rfl)
  obtain ⟨t1, h4⟩ := h3 (fun _ => 5) hx
  have t2 : dataMass a (netOf E [5, 7]) df par (fun _ => 5) (BBN.Agrees []) = 1 := by
    rw [← t1]
    unfold dataMass BBN.massWith
    simp [BBN.Agrees]
  obtain ⟨out, ho, hr⟩ := h4 [] (by simp) (by simp) (by rw [t2]; exact one_pos)
  refine ⟨tables, e, out, hok, h1, h2, ho, ?_⟩
  have := hr.gives hv hs
  rw [t2, div_one] at this
  rw [← hm]
  have e : dataMass a (netOf E [5, 7]) df par (fun _ => 5) (fun x => x v = s) =
      dataMass a (netOf E [5, 7]) df par (fun _ => 5) (fun x => BBN.Agrees [] x ∧ x v = s) := by
    unfold dataMass BBN.massWith
    simp [BBN.Agrees]
  rw [e]
  exact this

/-- The prior K2 is different: two equivalent structures, fitted to the same data, give different answers. -/
theorem k2_differs : Equivalent (EdgeRel chain) (EdgeRel fork) ∧
    FirstAnswer chain { method := "BayesianEstimator", prior := some "K2" } 0 5 (2 / 3) ∧
    FirstAnswer fork { method := "BayesianEstimator", prior := some "K2" } 0 5 (5 / 8) := by
  refine ⟨chain_fork, firstAnswer (by simp) rfl (by decide +kernel) (par := fun v => if v = 1 then [0] else if v = 2 then [1] else []) ?_
    (by decide +kernel) (by decide +kernel) (by decide +kernel) (by decide +kernel), firstAnswer (by simp) rfl (by decide +kernel)
    (par := fun v => if v = 0 then [1] else if v = 2 then [1] else []) ?_
    (by decide +kernel) (by decide +kernel) (by decide +kernel) (by decide +kernel)⟩
  · intro v
    split_ifs <;> simp [IsParentList, chain, *]
  · intro v
    split_ifs <;> simp [IsParentList, fork, *]

/-- The colliders matter: with the same links but another collider, answers differ. -/
theorem colliders_matter : (∀ a b, Linked (EdgeRel chain) a b ↔ Linked (EdgeRel clash) a b) ∧
    FirstAnswer chain {} 1 5 (1 / 2) ∧ FirstAnswer clash {} 1 5 (7 / 16) := by
  refine ⟨fun a b => ?_, firstAnswer (by simp) rfl (by decide +kernel) (par := fun v => if v = 1 then [0] else if v = 2 then [1] else []) ?_
    (by decide +kernel) (by decide +kernel) (by decide +kernel) (by decide +kernel), firstAnswer (by simp) rfl (by decide +kernel)
    (par := fun v => if v = 1 then [0, 2] else []) ?_
    (by decide +kernel) (by decide +kernel) (by decide +kernel) (by decide +kernel)⟩
  · simp [Linked, EdgeRel, chain, clash]
    omega
  · intro v
    split_ifs <;> simp [IsParentList, chain, *]
  · intro v
    split_ifs <;> simp [IsParentList, clash, *]

end Verif.Network.EquivalentWitness
