import Verif.Network.Rename
import Verif.Network.Witness

/-!
# C139: a concrete case

The network of `Witness`, `0 → 1` with the states 5 and 7, with the names of the two nodes exchanged and the signs of the states changed.
-/

namespace Verif.Network.Witness

open Function

/-- The new name of a node. -/
def swap (v : ℕ) : ℕ := if v = 0 then 1 else if v = 1 then 0 else v

/-- The new name of a state. -/
def neg (_ : ℕ) (s : ℚ) : ℚ := -s

theorem swap_injective : Injective swap := by
  intro a b h
  unfold swap at h
  split_ifs at h <;> omega

/-- The structure `1 → 0`. -/
def E' : List (ℕ × ℕ) := [(1, 0)]

/-- The data under the new names, in another order and with a further column. -/
def df' : DF ℕ ℚ := ⟨[5, 0, 1], [row (some (-7)) (some (-7)), row (some (-5)) (some (-5)), row (some (-7)) (some (-7))]⟩

/-- The states under the new names. -/
def dict' : List (ℕ × List (Option ℚ)) := [(0, [some (-7), some (-5)]), (1, [some (-5), some (-7)])]

/-- The freshly constructed network. -/
def net₀' : Net ℕ ℚ ℚ := ⟨[1, 0], [(1, 0)], none, []⟩

/-- The network with its states set. -/
def net₁' : Net ℕ ℚ ℚ := (setNodeStates net₀' dict').1

theorem isStructure' : IsStructure ns E' := ⟨by decide, by decide, by decide⟩

theorem init_ok' : (init ns E' : Except Err (Net ℕ ℚ ℚ)) = .ok net₀' := by
  have h1 : (Graph.weakComponents ns E').length = 1 := by decide
  have h2 : Graph.isDag ns E' = true := by decide
  unfold init
  rw [h1, h2]
  rfl

theorem reach₁' : Reach int ns E' net₁' :=
  .states (.init init_ok') (dict := dict') (by decide) (by decide +kernel) rfl

/-- The hypotheses of `fit_renamed` and `pipeline_renamed` can be met. -/
theorem sameInput : SameInput swap neg E net₁ df E' net₁' df' where
  inj := swap_injective
  inj_states := fun _ => neg_injective
  edges := by decide
  states := by
    rw [nodes₁]
    intro v hv
    simp only [List.mem_cons, List.not_mem_nil, or_false] at hv
    rcases hv with rfl | rfl <;> decide +kernel
  cols := by rw [nodes₁]; decide
  rows := by
    refine ⟨[row (some (-5)) (some (-5)), row (some (-7)) (some (-7)), row (some (-7)) (some (-7))], .swap .., ?_⟩
    rw [nodes₁]
    refine .cons ?_ (.cons ?_ (.cons ?_ .nil)) <;> decide +kernel

/-- Of what `fit_renamed` says about the example: the renamed network can be fitted, and its tables are those of the first one. -/
theorem renamed_fits : ∃ net₂' h₂' tables tables₂, fitCpds int net₁' [df'] 0 {} = (net₂', h₂', .ok ()) ∧ cpds net₂ = .ok tables ∧
    cpds net₂' = .ok tables₂ ∧ BBN.SameNet swap neg (framesOf tables) (framesOf tables₂) :=
  fit_renamed int_injective int_injective isStructure (by decide) isStructure' reach₁ reach₁' nonempty₁ sameInput rfl rfl fit_eq

end Verif.Network.Witness
