import Verif.Network.Pooled
import Verif.Network.PriorWitness

/-!
# C159: concrete cases
-/

namespace Verif.Network.PooledWitness

open Verif.Network.Witness (int int_injective)
open Verif.Network.EquivalentWitness (up row df netOf structure_of reach_of)
open Verif.Network.PriorWitness (k2 k2_bayesian entryOf)

/-- More data, one row of which has an unknown state. -/
def more : DF ℕ ℚ := ⟨[2, 1, 0], [row 5 7 7, row 7 5 7, row 9 5 5]⟩

/-- Both together, in another order. -/
def both : DF ℕ ℚ := ⟨[0, 1, 2], more.rows ++ df.rows⟩

/-- One more row. -/
def next : DF ℕ ℚ := ⟨[0, 1, 2], df.rows ++ [row 5 7 5]⟩

/-- The memory. -/
def mem : Heap ℕ ℚ := [df, more, both, next]

theorem fit_ok {ref : ℕ} (href : ref < 4) {a : FitArgs ℚ} (ha : a = {} ∨ a = k2) : fitCpds int (netOf up [5, 7]) mem ref a =
    ((fitCpds int (netOf up [5, 7]) mem ref a).1, (fitCpds int (netOf up [5, 7]) mem ref a).2.1, .ok ()) := by
  have hok : (fitCpds int (netOf up [5, 7]) mem ref a).2.2 = .ok () := by
    have : ∀ ref < 4, (fitCpds int (netOf up [5, 7]) mem ref {}).2.2 = .ok () ∧ (fitCpds int (netOf up [5, 7]) mem ref k2).2.2 = .ok () := by
      decide +kernel
    rcases ha with rfl | rfl
    · exact (this ref href).1
    · exact (this ref href).2
  rw [← hok]

/-- The theorem on two data sets applies, with both estimators. -/
theorem pooled_applies {a : FitArgs ℚ} (ha : a = {} ∨ a = k2) : ∃ net' h' tables, fitCpds int (netOf up [5, 7]) mem 2 a = (net', h', .ok ()) ∧
    cpds net' = .ok tables ∧ tables.map Prod.fst = (netOf up [5, 7]).nodes := by
  obtain ⟨net', h', -, -, tables, h1, -, -, h2, h3, -⟩ := pooled_entries int_injective (structure_of (E := up) (by simp))
    (reach_of (E := up) (by simp) (Or.inl rfl)) (by decide +kernel) (h := mem) (ref₁ := 0) (ref₂ := 1) (ref := 2) rfl rfl rfl (by decide)
    List.perm_append_comm (a := a) (by rcases ha with rfl | rfl; exacts [Or.inl rfl, Or.inr k2_bayesian])
    (fit_ok (by decide) ha) (fit_ok (by decide) ha)
  exact ⟨net', h', tables, h1, h2, h3⟩

/-- Of three rows with the state 5 of the node 0, two have the state 5 of the node 1; in the other data, it is none of one; together
two of four. -/
theorem entries : knownRowsWith (netOf up [5, 7]) df [0] [5] = 3 ∧ knownRowsWith (netOf up [5, 7]) more [0] [5] = 1 ∧
    entryOf (fitCpds int (netOf up [5, 7]) mem 0 {}).1 1 5 [5] = some (2 / 3) ∧
    entryOf (fitCpds int (netOf up [5, 7]) mem 1 {}).1 1 5 [5] = some 0 ∧
    entryOf (fitCpds int (netOf up [5, 7]) mem 2 {}).1 1 5 [5] = some (2 / 4) := by
  refine ⟨by decide +kernel, by decide +kernel, by decide +kernel, by decide +kernel, by decide +kernel⟩

/-- The theorem on one more row applies. -/
theorem one_more_applies {a : FitArgs ℚ} (ha : a = {} ∨ a = k2) : ∃ net' h' tables, fitCpds int (netOf up [5, 7]) mem 3 a = (net', h', .ok ()) ∧
    cpds net' = .ok tables ∧ tables.map Prod.fst = (netOf up [5, 7]).nodes := by
  obtain ⟨net', h', -, tables, h1, -, h2, h3, -⟩ := one_more_row int_injective (structure_of (E := up) (by simp))
    (reach_of (E := up) (by simp) (Or.inl rfl)) (by decide +kernel) (h := mem) (ref₁ := 0) (ref := 3) rfl rfl (by decide)
    (r := row 5 7 5) List.perm_append_comm (a := a) (by rcases ha with rfl | rfl; exacts [Or.inl rfl, Or.inr k2_bayesian])
    (fit_ok (by decide) ha)
  exact ⟨net', h', tables, h1, h2, h3⟩

/-- From 2/3 to 2/4, which is less than 1/4; where the node 0 has the state 7 nothing changes.  For the node 2 the
bound is attained: there was one row, and the entry changes by 1/2. -/
theorem one_more_entries :
    entryOf (fitCpds int (netOf up [5, 7]) mem 3 {}).1 1 5 [5] = some (2 / 4) ∧
    entryOf (fitCpds int (netOf up [5, 7]) mem 0 {}).1 1 5 [7] = entryOf (fitCpds int (netOf up [5, 7]) mem 3 {}).1 1 5 [7] ∧
    entryOf (fitCpds int (netOf up [5, 7]) mem 3 {}).1 2 5 [5, 7] = some (1 / 2) ∧
    entryOf (fitCpds int (netOf up [5, 7]) mem 0 {}).1 2 5 [5, 7] = some 0 := by
  refine ⟨by decide +kernel, by decide +kernel, by decide +kernel, by decide +kernel⟩

/-- The theorem on predictions applies: the states of the node 2 are predicted for the first data. -/
theorem predictions_apply (oracle : DF ℕ ℚ → List ℕ) : ∃ net₃ h₃ h₁' h₂' h₃' out₁ out₂ out₃,
    fitCpds int (netOf up [5, 7]) mem 2 {} = (net₃, h₃, .ok ()) ∧
      predict oracle int (fun v => v + 10) (fitCpds int (netOf up [5, 7]) mem 0 {}).1 [df] 0 2 = (h₁', .ok out₁) ∧
      predict oracle int (fun v => v + 10) (fitCpds int (netOf up [5, 7]) mem 1 {}).1 [df] 0 2 = (h₂', .ok out₂) ∧
      predict oracle int (fun v => v + 10) net₃ [df] 0 2 = (h₃', .ok out₃) ∧ out₁.rows.length = 4 ∧
      List.Forall₂ (fun r₁₂ r₃ => r₁₂.1 12 = r₁₂.2 12 → r₃ 12 = r₁₂.1 12) (out₁.rows.zip out₂.rows) out₃.rows := by
  refine pooled_predictions int_injective (structure_of (E := up) (by simp))
    (reach_of (E := up) (by simp) (Or.inl rfl)) (by decide +kernel) (h₀ := mem) (ref₁ := 0) (ref₂ := 1) (ref₃ := 2) rfl rfl rfl (by decide)
    List.perm_append_comm (a := {}) (by simp) (fit_ok (by decide) (Or.inl rfl)) (fit_ok (by decide) (Or.inl rfl))
    (v := 2) (by decide +kernel) (h := [df]) (ref := 0) rfl ?_ ?_ oracle (fun v => v + 10)
  · intro p hp
    have : ∀ e ∈ up, e.1 ∈ df.cols := by decide
    exact this _ hp
  · intro r hr p hp
    have hc : ∀ r ∈ df.rows, ∀ e ∈ up, ∃ s ∈ statesOf (netOf up [5, 7]) e.1, r e.1 = some s := by decide +kernel
    exact hc r hr _ hp

end Verif.Network.PooledWitness
