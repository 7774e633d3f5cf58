import Verif.Consistent.AnyLawPredict
import Verif.Consistent.Closest
import Verif.Consistent.Witness
import Verif.Network.EquivalentWitness

/-!
# C155: concrete cases
-/

namespace Verif.Consistent

open Verif.BBN Function MeasureTheory ProbabilityTheory
open Verif.Graph (EdgeRel Linked Collider)
open Verif.Network (FitArgs Net DF statesOf IsParentList IsConditional Reach setNodeStates init GoodArgs fitCpds cpds framesOf)

section
set_option linter.unusedSectionVars false
variable {V S : Type} [LinearOrder V] [LinearOrder S] {dom : V → List S} {vs : List V} {par : V → List V} {Q : V → S → List S → ℝ}
  {Ω : Type} [MeasurableSpace Ω] {P : Measure Ω} [IsProbabilityMeasure P] {X : ℕ → Ω → V → S}

/-- Rows from any Bayesian network, with whatever structure, are rows as C155 assumes them. -/
theorem RowsFrom.sameRows (hX : RowsFrom P dom vs par Q X) (x₀ : V → S) : SameRows P dom vs X := by
  classical
  refine ⟨hX.states, hX.measurable, hX.indep, fun i B => ?_⟩
  have hm : ∀ i (σ : V → S), MeasurableSet {ω | ∀ v ∈ vs, X i ω v = σ v} := by
    intro i σ
    have := hX.measurable i (t := {y | ∀ v : {v // v ∈ vs}, y v = σ v}) trivial
    convert this using 1
    ext ω
    exact ⟨fun h v => h v v.2, fun h v hv => h ⟨v, hv⟩⟩
  have key : ∀ i, P {ω | (fun v : {v // v ∈ vs} => X i ω v) ∈ B} =
      ∑ σ ∈ (worlds dom vs x₀).toFinset.filter (fun σ => (fun v : {v // v ∈ vs} => σ v) ∈ B), ENNReal.ofReal (truth vs par Q σ) := by
    intro i
    have h1 : P {ω | (fun v : {v // v ∈ vs} => X i ω v) ∈ B} =
        P (⋃ σ ∈ (worlds dom vs x₀).toFinset.filter (fun σ => (fun v : {v // v ∈ vs} => σ v) ∈ B), {ω | ∀ v ∈ vs, X i ω v = σ v}) := by
      refine measure_congr (Filter.eventuallyEq_set.2 ?_)
      filter_upwards [hX.states i] with ω hω
      simp only [Set.mem_iUnion, Finset.mem_filter, List.mem_toFinset]
      have hr : ∀ σ : V → S, (∀ v ∈ vs, X i ω v = σ v) → (fun v : {v // v ∈ vs} => X i ω v) = fun v : {v // v ∈ vs} => σ v :=
        fun σ h => funext fun v => h v v.2
      constructor
      · intro h
        obtain ⟨σ, hσ, he⟩ := Verif.Network.mem_worlds (dom := dom) (vs := vs) (x₀ := x₀) (y := X i ω) hω
        refine ⟨σ, ⟨hσ, ?_⟩, fun v hv => (he v hv).symm⟩
        rw [← hr σ fun v hv => (he v hv).symm]
        exact h
      · rintro ⟨σ, ⟨-, h⟩, he⟩
        rw [hr σ he]
        exact h
    rw [h1, measure_biUnion_finset]
    · refine Finset.sum_congr rfl fun σ hσ => hX.law i σ fun v hv => ?_
      exact (worlds_valid (List.mem_toFinset.1 (Finset.mem_filter.1 hσ).1) v).1 hv
    · intro σ hσ τ hτ hne
      refine Set.disjoint_left.2 fun ω h1 h2 => hne ?_
      rw [Finset.mem_coe, Finset.mem_filter, List.mem_toFinset] at hσ hτ
      exact worlds_inj hσ.1 hτ.1 fun v hv => by rw [← h1 v hv, h2 v hv]
    · exact fun σ _ => hm i σ
  rw [key, key]

/-- The probability of a property of such rows. -/
theorem RowsFrom.rowProb_eq (h : IsModel dom vs par Q) (hX : RowsFrom P dom vs par Q X) (x₀ : V → S) (A : (V → S) → Prop) [DecidablePred A]
    (hA : ∀ x y : V → S, (∀ v ∈ vs, x v = y v) → (A x ↔ A y)) : rowProb P X A = massWith dom vs (truth vs par Q) x₀ A := by
  rw [Verif.Consistent.rowProb_eq (hX.sameRows x₀) h.nodup h.states x₀ A hA]
  unfold massWith
  refine congrArg List.sum (List.map_congr_left fun σ hσ => ?_)
  have hv : ∀ v ∈ vs, σ v ∈ dom v := fun v hv => (worlds_valid (List.mem_filter.1 hσ).1 v).1 hv
  rw [rowLaw, rowProb, hX.law 0 σ hv, ENNReal.toReal_ofReal (h.truth_nonneg hv)]

end

namespace Witness

open Verif.Network.Witness (int int_injective)
open Verif.Network.EquivalentWitness (chain structure_of)

def dict₃ : List (ℕ × List (Option ℚ)) := [(0, [some 5, some 7]), (1, [some 5, some 7]), (2, [some 5, some 7])]

/-- The chain `0 → 1 → 2`, with states 5 and 7 of all nodes. -/
noncomputable def net₃ : Net ℕ ℚ ℝ := (setNodeStates (⟨[0, 1, 2], chain, none, []⟩ : Net ℕ ℚ ℝ) dict₃).1

theorem init₃ : (init [0, 1, 2] chain : Except Verif.Network.Err (Net ℕ ℚ ℝ)) = .ok ⟨[0, 1, 2], chain, none, []⟩ := by
  have h1 : (Graph.weakComponents [0, 1, 2] chain).length = 1 := by decide
  have h2 : Graph.isDag [0, 1, 2] chain = true := by decide
  unfold init
  rw [h1, h2]
  rfl

theorem reach₃ : Reach int [0, 1, 2] chain net₃ := .states (.init init₃) (dict := dict₃) (by decide) (by decide +kernel) rfl

theorem structure₃ : Verif.Network.IsStructure [0, 1, 2] chain := structure_of (by simp)

theorem nodes₃ : net₃.nodes = [0, 1, 2] := by
  rw [(reach₃.wf structure₃).nodes]
  decide

theorem states₃ : ∀ v ∈ net₃.nodes, statesOf net₃ v = [5, 7] := by
  rw [nodes₃]
  intro v hv
  simp only [List.mem_cons, List.not_mem_nil, or_false] at hv
  rcases hv with rfl | rfl | rfl <;> decide +kernel

/-- The parents in the chain. -/
def chainPar (v : ℕ) : List ℕ := if v = 1 then [0] else if v = 2 then [1] else []

theorem chainPar_ok : ∀ v ∈ net₃.nodes, IsParentList chain v (chainPar v) := by
  rw [nodes₃]
  intro v hv
  simp only [List.mem_cons, List.not_mem_nil, or_false] at hv
  rcases hv with rfl | rfl | rfl <;> exact ⟨by decide, fun u => by simp [chainPar, chain]⟩

/-- The rows do not have the structure of the chain: node 2 is a copy of node 0, and node 1 is independent of both. -/
def copyPar (v : ℕ) : List ℕ := if v = 2 then [0] else []

noncomputable def copyQ (v : ℕ) (s : ℚ) (ps : List ℚ) : ℝ := if v = 2 then (if ps = [s] then 1 else 0) else 1 / 2

theorem start₃ : ∀ v ∈ net₃.nodes, (fun _ => (5 : ℚ)) v ∈ statesOf net₃ v := fun v hv => by
  rw [states₃ v hv]
  simp

theorem copy_model : IsModel (statesOf net₃) net₃.nodes copyPar copyQ := by
  have h57 : (7 : ℚ) ≠ 5 := by norm_num
  refine ⟨by rw [nodes₃]; decide, fun v hv => by rw [states₃ v hv]; decide +kernel, ?_, fun v _ => ?_, ?_, fun v _ ps _ s _ => ?_, fun v hv ps hps => ?_⟩
  · intro v _ p hp
    rw [nodes₃]
    unfold copyPar at hp
    split_ifs at hp <;> simp_all
  · unfold copyPar
    split_ifs <;> simp
  · rw [nodes₃]
    intro v hv
    have : ∀ a b, Relation.TransGen (EdgeRel ([0, 1, 2].flatMap fun v => (copyPar v).map fun p => (p, v))) a b → a = 0 ∧ b = 2 := by
      intro a b hab
      induction hab with
      | single h => simpa [EdgeRel, copyPar] using h
      | tail h1 h2 ih =>
        obtain ⟨e1, e2⟩ := ih
        subst e2
        simp [EdgeRel, copyPar] at h2
    have := this v v hv
    omega
  · unfold copyQ
    split_ifs <;> norm_num
  · rw [states₃ v hv]
    by_cases h2 : v = 2
    · subst h2
      obtain ⟨s, hs, rfl⟩ : ∃ s, (s = 5 ∨ s = 7) ∧ ps = [s] := by
        simp only [copyPar, if_true] at hps
        obtain ⟨s, l, hs, hl, rfl⟩ := List.forall₂_cons_right_iff.1 hps
        rw [List.forall₂_nil_right_iff.1 hl]
        rw [states₃ 0 (by rw [nodes₃]; decide)] at hs
        exact ⟨s, by simpa using hs, rfl⟩
      rcases hs with rfl | rfl
      · simp [copyQ, h57.symm]
      · simp [copyQ, h57]
    · simp [copyQ, h2]
      norm_num

/-- An assignment of states to the three nodes. -/
def world (a b c : ℚ) : ℕ → ℚ := update (update (update (fun _ => 5) 0 a) 1 b) 2 c

theorem world_at (a b c : ℚ) : world a b c 0 = a ∧ world a b c 1 = b ∧ world a b c 2 = c := by
  simp [world]

theorem mass₃ (J : (ℕ → ℚ) → ℝ) (A : (ℕ → ℚ) → Prop) [DecidablePred A] : massWith (statesOf net₃) net₃.nodes J (fun _ => 5) A =
    ([5, 7].map fun a => ([5, 7].map fun b => ([5, 7].map fun c => if A (world a b c) then J (world a b c) else 0).sum).sum).sum := by
  have h0 := states₃ 0 (by rw [nodes₃]; decide)
  have h1 := states₃ 1 (by rw [nodes₃]; decide)
  have h2 := states₃ 2 (by rw [nodes₃]; decide)
  rw [massWith_eq_sumOver, nodes₃]
  simp only [sumOver, h0, h1, h2, world]
  rfl

theorem copy_truth (a b c : ℚ) : truth net₃.nodes copyPar copyQ (world a b c) = 1 / 2 * (1 / 2 * (if a = c then 1 else 0)) := by
  obtain ⟨h0, h1, h2⟩ := world_at a b c
  rw [truth, nodes₃]
  simp [copyPar, copyQ, h0, h1, h2]

variable {Ω : Type} [MeasurableSpace Ω] {P : Measure Ω} [IsProbabilityMeasure P] {R : ℕ → Ω → ℕ → ℚ}

theorem copy_prob (hR : RowsFrom P (statesOf net₃) net₃.nodes copyPar copyQ R) (A : (ℕ → ℚ) → Prop) [DecidablePred A]
    (hA : ∀ x y : ℕ → ℚ, (∀ v ∈ net₃.nodes, x v = y v) → (A x ↔ A y)) : rowProb P R A =
    ([5, 7].map fun a => ([5, 7].map fun b => ([5, 7].map fun c =>
      if A (world a b c) then 1 / 2 * (1 / 2 * (if a = c then (1 : ℝ) else 0)) else 0).sum).sum).sum := by
  rw [hR.rowProb_eq copy_model (fun _ => 5) A hA, mass₃]
  simp only [copy_truth]

/-- The limit tables for the chain: all states have probability `1/2`. -/
theorem copy_limit (hR : RowsFrom P (statesOf net₃) net₃.nodes copyPar copyQ R) {a b c : ℚ} (ha : a ∈ [(5 : ℚ), 7]) (hb : b ∈ [(5 : ℚ), 7]) (hc : c ∈ [(5 : ℚ), 7]) :
    truth net₃.nodes chainPar (limitTable P R (statesOf net₃) chainPar) (world a b c) = 1 / 8 := by
  obtain ⟨h0, h1, h2⟩ := world_at a b c
  have n0 : 0 ∈ net₃.nodes := by rw [nodes₃]; decide
  have n1 : 1 ∈ net₃.nodes := by rw [nodes₃]; decide
  have n2 : 2 ∈ net₃.nodes := by rw [nodes₃]; decide
  have h57 : (7 : ℚ) ≠ 5 := by norm_num
  have p0 : chainPar 0 = [] := rfl
  have p1 : chainPar 1 = [0] := rfl
  have p2 : chainPar 2 = [1] := rfl
  have q0 : limitTable P R (statesOf net₃) chainPar 0 a [] = 1 / 2 := by
    have e1 := copy_prob hR (fun x => (chainPar 0).map x = []) fun x y h => by simp [p0]
    have e2 := copy_prob hR (fun x => x 0 = a ∧ (chainPar 0).map x = []) fun x y h => by simp [p0, h 0 n0]
    rw [limitTable, e1, e2]
    simp only [p0, List.mem_cons, List.not_mem_nil, or_false] at ha ⊢
    rcases ha with rfl | rfl <;> norm_num [world_at]
  have q1 : limitTable P R (statesOf net₃) chainPar 1 b [a] = 1 / 2 := by
    have e1 := copy_prob hR (fun x => (chainPar 1).map x = [a]) fun x y h => by simp [p1, h 0 n0]
    have e2 := copy_prob hR (fun x => x 1 = b ∧ (chainPar 1).map x = [a]) fun x y h => by simp [p1, h 0 n0, h 1 n1]
    rw [limitTable, e1, e2]
    simp only [p1, List.mem_cons, List.not_mem_nil, or_false] at ha hb ⊢
    rcases ha with rfl | rfl <;> rcases hb with rfl | rfl <;> norm_num [world_at]
  have q2 : limitTable P R (statesOf net₃) chainPar 2 c [b] = 1 / 2 := by
    have e1 := copy_prob hR (fun x => (chainPar 2).map x = [b]) fun x y h => by simp [p2, h 1 n1]
    have e2 := copy_prob hR (fun x => x 2 = c ∧ (chainPar 2).map x = [b]) fun x y h => by simp [p2, h 1 n1, h 2 n2]
    rw [limitTable, e1, e2]
    simp only [p2, List.mem_cons, List.not_mem_nil, or_false] at hb hc ⊢
    rcases hb with rfl | rfl <;> rcases hc with rfl | rfl <;> norm_num [world_at]
  rw [truth, nodes₃]
  simp only [List.map_cons, List.map_nil, List.prod_cons, List.prod_nil, h0, h1, h2, p0, p1, p2, q0, q1, q2]
  norm_num

/-- C155 applies: the chain is fitted to rows in which node 2 is a copy of node 0.  The answer for node 0 given node 1, which are linked,
converges to the conditional probability `1/2`.  The answer for node 2 given node 0, which are not linked, converges to `1/2` as
well, although the conditional probability is 1. -/
theorem wrong_structure : ∃ (Ω : Type) (_ : MeasurableSpace Ω) (P : Measure Ω) (_ : IsProbabilityMeasure P) (R : ℕ → Ω → ℕ → ℚ),
    SameRows P (statesOf net₃) net₃.nodes R ∧
    rowProb P R (fun x => x 1 = 5 ∧ x 0 = 5) / rowProb P R (fun x => x 1 = 5) = 1 / 2 ∧
    rowProb P R (fun x => x 0 = 5 ∧ x 2 = 5) / rowProb P R (fun x => x 0 = 5) = 1 ∧
    ∀ᵐ ω ∂P, ∀ ε > 0, ∃ n₀ : ℕ, ∀ n, n₀ ≤ n →
      ∃ net' h' tables e out₁ out₂ p₁ p₂,
        fitCpds int net₃ [⟨[0, 1, 2], List.ofFn fun (i : Fin n) v => some (R i ω v)⟩] 0 {} = (net', h', .ok ()) ∧
        cpds net' = .ok tables ∧ Engine.create (fun _ => true) (framesOf tables) = .ok e ∧
        e.query exNd [(1, 5)] = .ok out₁ ∧ Gives out₁ 0 5 p₁ ∧ |p₁ - 1 / 2| ≤ ε ∧
        e.query exNd [(0, 5)] = .ok out₂ ∧ Gives out₂ 2 5 p₂ ∧ |p₂ - 1 / 2| ≤ ε := by
  have n0 : 0 ∈ net₃.nodes := by rw [nodes₃]; decide
  have n1 : 1 ∈ net₃.nodes := by rw [nodes₃]; decide
  have n2 : 2 ∈ net₃.nodes := by rw [nodes₃]; decide
  obtain ⟨Ω, m, P, hP, R, hR⟩ := rows_exist copy_model start₃ ℕ
  have hS := hR.sameRows (fun _ => 5)
  have e1 : rowProb P R (fun x => x 1 = 5) = 1 / 2 := by
    rw [copy_prob hR _ fun x y h => by rw [h 1 n1]]
    norm_num [world_at]
  have e2 : rowProb P R (fun x => x 1 = 5 ∧ x 0 = 5) = 1 / 4 := by
    rw [copy_prob hR _ fun x y h => by rw [h 1 n1, h 0 n0]]
    norm_num [world_at]
  have e3 : rowProb P R (fun x => x 0 = 5) = 1 / 2 := by
    rw [copy_prob hR _ fun x y h => by rw [h 0 n0]]
    norm_num [world_at]
  have e4 : rowProb P R (fun x => x 0 = 5 ∧ x 2 = 5) = 1 / 2 := by
    rw [copy_prob hR _ fun x y h => by rw [h 0 n0, h 2 n2]]
    norm_num [world_at]
  refine ⟨Ω, m, P, hP, R, hS, by rw [e1, e2]; norm_num, by rw [e3, e4]; norm_num, ?_⟩
  filter_upwards [any_distribution int_injective structure₃ (by decide) reach₃ start₃ chainPar_ok hS] with ω hω ε hε
  obtain ⟨n₀, hn₀⟩ := hω {} (Or.inl rfl) (by simp) ε hε
  refine ⟨n₀, fun n hn => ?_⟩
  obtain ⟨net', h', tables, h1, h2, -, -, h3⟩ := hn₀ n hn [⟨[0, 1, 2], List.ofFn fun (i : Fin n) v => some (R i ω v)⟩] 0 _ rfl
    ⟨by rw [nodes₃]; exact fun _ h => h, _, rfl, fun _ _ _ => rfl⟩
  obtain ⟨e, he, hq, hl⟩ := h3 exNd exNd_legal (fun _ => true) (fun _ _ => rfl)
  have g5 : ∀ v ∈ net₃.nodes, (5 : ℚ) ∈ statesOf net₃ v := start₃
  have a1 : ∀ (v : ℕ) (x : ℕ → ℚ), Agrees [(v, (5 : ℚ))] x ↔ x v = 5 := fun v x => by simp [Agrees]
  have a2 : rowProb P R (Agrees [(1, (5 : ℚ))]) = rowProb P R (fun x => x 1 = 5) := congrArg _ (funext fun x => propext (a1 1 x))
  obtain ⟨out₁, ho₁, hg₁⟩ := hl (by intro a c b; simp [Collider, EdgeRel, chain]; omega) [(1, 5)] (by decide)
    (by simpa using ⟨n1, g5 1 n1⟩) (by rw [a2, e1]; norm_num) 0 n0 (by decide) (by simp [Linked, EdgeRel, chain])
  obtain ⟨p₁, hp₁, hd₁⟩ := hg₁ 5 (g5 0 n0)
  simp only [a1] at hd₁
  rw [a2, e1, e2] at hd₁
  have m1 : massWith (statesOf net₃) net₃.nodes (truth net₃.nodes chainPar (limitTable P R (statesOf net₃) chainPar)) (fun _ => 5)
      (Agrees [(0, (5 : ℚ))]) = 1 / 2 := by
    rw [massWith_congr (a1 0), mass₃]
    simp only [List.map_cons, List.map_nil, List.sum_cons, List.sum_nil]
    repeat rw [copy_limit hR (by simp) (by simp) (by simp)]
    norm_num [world_at]
  have m2 : massWith (statesOf net₃) net₃.nodes (truth net₃.nodes chainPar (limitTable P R (statesOf net₃) chainPar)) (fun _ => 5)
      (fun x => Agrees [(0, (5 : ℚ))] x ∧ x 2 = 5) = 1 / 4 := by
    rw [massWith_congr (B := fun x => x 0 = 5 ∧ x 2 = 5) fun x => and_congr_left fun _ => a1 0 x, mass₃]
    simp only [List.map_cons, List.map_nil, List.sum_cons, List.sum_nil]
    repeat rw [copy_limit hR (by simp) (by simp) (by simp)]
    norm_num [world_at]
  obtain ⟨out₂, ho₂, hrep⟩ := hq [(0, 5)] (by decide) (by simpa using ⟨n0, g5 0 n0⟩) (by rw [m1]; norm_num)
  obtain ⟨p₂, hp₂, hd₂⟩ := hrep.gives copy_model.nodup (states_nodup structure₃ reach₃) n2 (g5 2 n2)
  rw [m1, m2] at hd₂
  exact ⟨net', h', tables, e, out₁, out₂, p₁, p₂, h1, h2, he, ho₁, hp₁, by convert hd₁ using 3; norm_num, ho₂, hp₂, by convert hd₂ using 3; norm_num⟩

/-- The part about predictions applies as well. -/
example (hR : RowsFrom P (statesOf net₃) net₃.nodes copyPar copyQ R) :=
  any_distribution_predict int_injective structure₃ (by decide) reach₃ start₃ chainPar_ok (hR.sameRows fun _ => 5)

/-- Unfair coins are one of the networks with which the limit network is compared. -/
example (hR : RowsFrom P (statesOf net₃) net₃.nodes copyPar copyQ R) :
    IsConditional net₃ chainPar (fun _ s _ => if s = 5 then 1 / 3 else 2 / 3) ∧ (∀ σ : ℕ → ℚ, 0 < truth net₃.nodes chainPar (fun _ s _ => if s = 5 then 1 / 3 else 2 / 3) σ) ∧
    ((worlds (statesOf net₃) net₃.nodes fun _ => 5).map fun σ =>
        rowProb P R (fun x => ∀ v ∈ net₃.nodes, x v = σ v) * Real.log (truth net₃.nodes chainPar (fun _ s _ => if s = 5 then 1 / 3 else 2 / 3) σ)).sum ≤
      ((worlds (statesOf net₃) net₃.nodes fun _ => 5).map fun σ =>
        rowProb P R (fun x => ∀ v ∈ net₃.nodes, x v = σ v) *
          Real.log (truth net₃.nodes chainPar (limitTable P R (statesOf net₃) chainPar) σ)).sum := by
  have h1 : IsConditional net₃ chainPar (fun _ s _ => if s = 5 then 1 / 3 else 2 / 3) := by
    intro v hv ps _
    refine ⟨fun s _ => by dsimp only; split_ifs <;> norm_num, ?_⟩
    rw [states₃ v hv]
    norm_num
  have h2 : ∀ σ : ℕ → ℚ, 0 < truth net₃.nodes chainPar (fun _ s _ => if s = 5 then 1 / 3 else 2 / 3) σ := fun σ => List.prod_pos fun y hy => by
    obtain ⟨v, -, rfl⟩ := List.mem_map.1 hy
    dsimp only
    split_ifs <;> norm_num
  exact ⟨h1, h2, (limit_closest structure₃ reach₃ start₃ chainPar_ok (hR.sameRows fun _ => 5)).2 _ h1 fun σ _ _ => h2 σ⟩

end Witness

end Verif.Consistent
