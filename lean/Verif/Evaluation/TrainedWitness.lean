import Verif.Evaluation.Trained
import Verif.Evaluation.LimitWitness
import Verif.Consistent.Witness

/-!
# A concrete case for C151
-/

namespace Verif.Evaluation.Limit

open Verif.Network Verif.Str
open Verif.Consistent (isModel_of states_nodup rows_exist)

/-- The parents. -/
def par (v : Str) : List Str := if v = ['n'] then [Witness.p] else []

/-- The child has one of its states with probability 3/4, which one depends on the parent. -/
noncomputable def Q (v : Str) (s : S) (ps : List S) : ℝ :=
  if v = ['n'] then (if (ps = [st 0] ↔ s = st 2) then 3 / 4 else 1 / 4) else 1 / 2

theorem par_ok : ∀ v ∈ net₁.nodes, IsParentList Witness.E v (par v) := by
  intro v hv
  rw [nodes₁] at hv
  simp only [List.mem_cons, List.not_mem_nil, or_false] at hv
  rcases hv with rfl | rfl <;> simp [IsParentList, par, Witness.E, Witness.p]

theorem Q_ok : IsConditional net₁ par Q := by
  have h23 : st 3 ≠ st 2 := fun h => absurd (Sum.inl_injective (toLex.injective h)) (by norm_num)
  intro v hv ps _
  refine ⟨fun s _ => by unfold Q; split_ifs <;> norm_num, ?_⟩
  rw [nodes₁] at hv
  simp only [List.mem_cons, List.not_mem_nil, or_false] at hv
  rcases hv with rfl | rfl
  · rw [states_p]
    have : Witness.p ≠ ['n'] := by decide
    simp only [Q, this, if_false, List.map_cons, List.map_nil, List.sum_cons, List.sum_nil]
    norm_num
  · rw [states_n]
    simp only [Q, if_true, List.map_cons, List.map_nil, List.sum_cons, List.sum_nil, h23, iff_true, iff_false]
    by_cases h : ps = [st 0]
    · simp [h]; norm_num
    · simp [h]; norm_num

/-- Some states. -/
def start (v : Str) : S := if v = ['n'] then st 2 else st 0

theorem start_ok : ∀ v ∈ net₁.nodes, start v ∈ statesOf net₁ v := by
  intro v hv
  rw [nodes₁] at hv
  simp only [List.mem_cons, List.not_mem_nil, or_false] at hv
  have : Witness.p ≠ ['n'] := by decide
  rcases hv with rfl | rfl
  · rw [states_p]; simp [start, this]
  · rw [states_n]; simp [start]

/-- There are rows from this network, and C151 applies to them, also if training and test rows are the same. -/
example : ∃ (Ω : Type) (_ : MeasurableSpace Ω) (P : MeasureTheory.Measure Ω) (_ : MeasureTheory.IsProbabilityMeasure P) (X : ℕ → Ω → Str → S),
    Consistent.RowsFrom P (statesOf net₁) net₁.nodes par Q X ∧
    ∃ c, IsGreatest (accuracyOf (statesOf net₁) net₁.nodes par Q start ['n'] '' {f | IsRule net₁.nodes Witness.E ['n'] f}) c := by
  obtain ⟨Ω, m, P, hP, X, hX⟩ := rows_exist (isModel_of Witness.isStructure reach₁ (states_nodup Witness.isStructure reach₁) par_ok Q_ok) start_ok ℕ
  obtain ⟨c, hc, -⟩ := trained_accuracy int_injective Witness.isStructure (by decide) reach₁ start_ok par_ok Q_ok hX hX (v := ['n']) (by rw [nodes₁]; decide)
  exact ⟨Ω, m, P, hP, X, hX, c, hc⟩

end Verif.Evaluation.Limit
