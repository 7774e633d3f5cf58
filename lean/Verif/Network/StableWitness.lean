import Verif.Network.Stable
import Verif.Network.PooledWitness

/-!
# C160: concrete cases
-/

namespace Verif.Network.StableWitness

open Verif.Network.Witness (int int_injective)
open Verif.Network.EquivalentWitness (up row df netOf structure_of reach_of)
open Verif.Network.PriorWitness (bdeu)

/-- A slightly larger equivalent sample size than 6. -/
def near : FitArgs ℚ := bdeu (6001 / 1000)

/-- The tables of a fitted network. -/
def tablesOf (a : FitArgs ℚ) : List (ℕ × Table ℕ ℚ ℚ) :=
  match cpds (fitCpds int (netOf up [5, 7]) [df] 0 a).1 with
  | .ok tables => tables
  | .error _ => []

theorem fit_ok {a : FitArgs ℚ} (ha : a = near ∨ a = bdeu 6) : fitCpds int (netOf up [5, 7]) [df] 0 a =
    ((fitCpds int (netOf up [5, 7]) [df] 0 a).1, (fitCpds int (netOf up [5, 7]) [df] 0 a).2.1, .ok ()) ∧
    cpds (fitCpds int (netOf up [5, 7]) [df] 0 a).1 = .ok (tablesOf a) := by
  have hok : (fitCpds int (netOf up [5, 7]) [df] 0 a).2.2 = .ok () := by
    rcases ha with rfl | rfl <;> decide +kernel
  have hf : fitCpds int (netOf up [5, 7]) [df] 0 a =
      ((fitCpds int (netOf up [5, 7]) [df] 0 a).1, (fitCpds int (netOf up [5, 7]) [df] 0 a).2.1, .ok ()) := by rw [← hok]
  refine ⟨hf, ?_⟩
  obtain ⟨tables, hc, -⟩ := fit_entries int_injective (structure_of (E := up) (by simp)) (reach_of (E := up) (by simp) (Or.inl rfl))
    (by decide +kernel) (h := [df]) (ref := 0) rfl hf
  rw [tablesOf, hc]

/-- All combinations of states of a list of nodes. -/
theorem config_mem {l : List ℕ} {ps : List ℚ} (h : IsConfig (netOf up [5, 7]) l ps) : ps ∈ product (l.map (statesOf (netOf up [5, 7]))) := by
  exact mem_product.2 (List.forall₂_map_right_iff.2 h)

/-- The tables fitted with the two priors are close to each other. -/
theorem within : WithinDistance (netOf up [5, 7]) (1 / 10000) (1 / 12) (tablesOf near) (tablesOf (bdeu 6)) := by
  have key : ∀ q₁ ∈ tablesOf near, ∀ q₂ ∈ tablesOf (bdeu 6), q₁.1 = q₂.1 → ∀ s ∈ statesOf (netOf up [5, 7]) q₁.1,
      ∀ ps ∈ product (q₁.2.parents.map (statesOf (netOf up [5, 7]))), ∀ p ∈ q₁.2.entry s ps, ∀ q ∈ q₂.2.entry s ps,
      1 / 12 ≤ p ∧ 1 / 12 ≤ q ∧ |p - q| ≤ 1 / 10000 := by
    decide +kernel
  intro v t₁ t₂ ht₁ ht₂ s hs ps hps p q hp hq
  exact key _ ht₁ _ ht₂ rfl s hs ps (config_mem hps) p hp q hq

/-- The theorem applies to these networks: whether the node 0 has the state 5, having seen the state 7 of the node 2. -/
theorem stable_applies : ∃ e₁ e₂ out₁ out₂, BBN.Engine.create (fun _ => true) (framesOf (tablesOf near)) = .ok e₁ ∧
    BBN.Engine.create (fun _ => true) (framesOf (tablesOf (bdeu 6))) = .ok e₂ ∧
    e₁.query BBN.exNd [(2, 7)] = .ok out₁ ∧ e₂.query BBN.exNd [(2, 7)] = .ok out₂ ∧
    ∃ p q, BBN.Gives out₁ 0 5 p ∧ BBN.Gives out₂ 0 5 q ∧ |p - q| ≤ 1 / 100 := by
  obtain ⟨e₁, e₂, h1, h2, H⟩ := answers_stable_distance int_injective (structure_of (E := up) (by simp)) (by decide)
    (reach_of (E := up) (by simp) (Or.inl rfl)) (by decide +kernel) (h := [df]) (ref₁ := 0) (ref₂ := 0) rfl rfl (a₁ := near) (a₂ := bdeu 6)
    (by simp [bdeu, near]) (by simp [bdeu]) (fit_ok (Or.inl rfl)).1 (fit_ok (Or.inr rfl)).1 (fit_ok (Or.inl rfl)).2 (fit_ok (Or.inr rfl)).2
    (by norm_num) (by norm_num) within (okName := fun _ => true) (by simp) BBN.exNd_legal BBN.exNd_legal
  obtain ⟨out₁, out₂, o1, o2, G⟩ := H [(2, 7)] (by decide) (by decide +kernel)
  obtain ⟨p, q, g1, g2, g3⟩ := G 0 (by decide +kernel) 5 (by decide +kernel)
  refine ⟨e₁, e₂, out₁, out₂, h1, h2, o1, o2, p, q, g1, g2, g3.trans ?_⟩
  rw [show (netOf up [5, 7]).nodes.length = 3 by decide +kernel]
  norm_num

/-- Data with all combinations of states, one of them twice. -/
def full : DF ℕ ℚ := ⟨[0, 1, 2], [row 5 5 5, row 5 5 7, row 5 7 5, row 5 7 7, row 7 5 5, row 7 5 7, row 7 7 5, row 7 7 7, row 7 7 7]⟩

/-- The tables with maximum likelihood. -/
def fullTables : List (ℕ × Table ℕ ℚ ℚ) :=
  match cpds (fitCpds int (netOf up [5, 7]) [full] 0 {}).1 with
  | .ok tables => tables
  | .error _ => []

theorem full_ok : fitCpds int (netOf up [5, 7]) [full] 0 {} =
    ((fitCpds int (netOf up [5, 7]) [full] 0 {}).1, (fitCpds int (netOf up [5, 7]) [full] 0 {}).2.1, .ok ()) ∧
    cpds (fitCpds int (netOf up [5, 7]) [full] 0 {}).1 = .ok fullTables := by
  have hok : (fitCpds int (netOf up [5, 7]) [full] 0 {}).2.2 = .ok () := by decide +kernel
  have hf : fitCpds int (netOf up [5, 7]) [full] 0 {} =
      ((fitCpds int (netOf up [5, 7]) [full] 0 {}).1, (fitCpds int (netOf up [5, 7]) [full] 0 {}).2.1, .ok ()) := by rw [← hok]
  refine ⟨hf, ?_⟩
  obtain ⟨tables, hc, -⟩ := fit_entries int_injective (structure_of (E := up) (by simp)) (reach_of (E := up) (by simp) (Or.inl rfl))
    (by decide +kernel) (h := [full]) (ref := 0) rfl hf
  rw [fullTables, hc]

/-- The theorem on the prior applies: a weak prior moves no answer by more than 1/40. -/
theorem prior_answers_applies : ∃ net' h' tables e₀ e out₀ out, fitCpds int (netOf up [5, 7]) [full] 0 (bdeu (1 / 100)) = (net', h', .ok ()) ∧
    cpds net' = .ok tables ∧ BBN.Engine.create (fun _ => true) (framesOf fullTables) = .ok e₀ ∧
    BBN.Engine.create (fun _ => true) (framesOf tables) = .ok e ∧ e₀.query BBN.exNd [(2, 7)] = .ok out₀ ∧ e.query BBN.exNd [(2, 7)] = .ok out ∧
    ∃ p q, BBN.Gives out₀ 0 5 p ∧ BBN.Gives out 0 5 q ∧ |p - q| ≤ 1 / 40 := by
  have key : ∀ q ∈ fullTables, ∀ s ∈ statesOf (netOf up [5, 7]) q.1,
      ∀ ps ∈ product (q.2.parents.map (statesOf (netOf up [5, 7]))), (∀ p ∈ q.2.entry s ps, (1 / 3 : ℚ) ≤ p) ∧
      (1 / 3 : ℚ) ≤ 1 / (statesOf (netOf up [5, 7]) q.1).length ∧
      priorRows (bdeu (1 / 100)) (statesOf (netOf up [5, 7]) q.1).length (q.2.parents.map fun u => (statesOf (netOf up [5, 7]) u).length).prod ≤
        1 / 801 * (knownRowsWith (netOf up [5, 7]) full q.2.parents ps +
          priorRows (bdeu (1 / 100)) (statesOf (netOf up [5, 7]) q.1).length
            (q.2.parents.map fun u => (statesOf (netOf up [5, 7]) u).length).prod) := by
    decide +kernel
  obtain ⟨net', h', tables, e₀, e, h1, h2, h3, h4, H⟩ := prior_answers int_injective (structure_of (E := up) (by simp)) (by decide)
    (reach_of (E := up) (by simp) (Or.inl rfl)) (by decide +kernel) (h := [full]) (ref := 0) rfl (a := bdeu (1 / 100))
    (PriorWitness.bdeu_bayesian (by norm_num)) (by simp [bdeu]) full_ok.1 full_ok.2 (δ := 1 / 801) (ε := 1 / 3) (by norm_num) (by norm_num)
    (fun v t ht s hs ps hps => by
      obtain ⟨k1, k2, k3⟩ := key _ ht s hs ps (config_mem hps)
      exact ⟨fun p hp => k1 p hp, k2, k3⟩) (okName := fun _ => true) (by simp) BBN.exNd_legal BBN.exNd_legal
  obtain ⟨out₀, out, o1, o2, G⟩ := H [(2, 7)] (by decide) (by decide +kernel)
  obtain ⟨p, q, g1, g2, g3⟩ := G 0 (by decide +kernel) 5 (by decide +kernel)
  refine ⟨net', h', tables, e₀, e, out₀, out, h1, h2, h3, h4, o1, o2, p, q, g1, g2, g3.trans ?_⟩
  rw [show (netOf up [5, 7]).nodes.length = 3 by decide +kernel]
  norm_num

end Verif.Network.StableWitness
