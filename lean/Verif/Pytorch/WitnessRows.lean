import Verif.Pytorch.Rows
import Verif.Pytorch.LearnExamples

/-!
# Concrete cases for C116
-/

namespace Verif.Pytorch

/-- The hypothesis of `fromNumpy_frequencies` is met by `exFrame` (with categorical and ordinal columns) and its rows three times, in
reverse order. Learning succeeds for both, with the same edge from column 0 to column 3. -/
theorem rows_example : Dynotears.SameRows exFrame.rows (List.replicate 3 exFrame.rows).flatten.reverse ∧
    ∃ g g', fromNumpy (goTo exParams) (fun _ => 0) 17 exFrame exArgs = .ok g ∧
      fromNumpy (goTo exParams) (fun _ => 0) 17 ⟨exFrame.cols, (List.replicate 3 exFrame.rows).flatten.reverse⟩ exArgs = .ok g' ∧
      g.Alike g' ∧ (∃ e ∈ g'.edges, e.src = 0 ∧ e.dst = 3 ∧ e.weight = 3 / 4) ∧ g'.warned = false := by
  have hs : Dynotears.SameRows exFrame.rows (List.replicate 3 exFrame.rows).flatten.reverse :=
    ⟨3, 1, by norm_num, one_ne_zero, by
      rw [List.replicate_one, List.flatten_singleton]
      exact (List.reverse_perm _).symm⟩
  refine ⟨hs, ?_⟩
  obtain ⟨-, -, -, -, g, hg, hw, -, -, he, -⟩ := fromNumpy_example
  have h := fromNumpy_frequencies (goTo exParams) (fun _ => 0) 17
    (X := exFrame) (X' := ⟨exFrame.cols, (List.replicate 3 exFrame.rows).flatten.reverse⟩) exArgs rfl hs
  rw [hg] at h
  generalize hg' : fromNumpy (goTo exParams) (fun _ => 0) 17 ⟨exFrame.cols, (List.replicate 3 exFrame.rows).flatten.reverse⟩ exArgs = r at h
  cases h with
  | ok h => exact ⟨g, _, hg, rfl, h, h.edges ▸ he, h.warned ▸ hw⟩

/-- Three and two rows of one class out of five, or six and four out of ten, are the same to an ordinal type; three out of four are
not. -/
example : (Enc.ord 0 [0, 1] [3, 2]).Alike (Enc.ord 0 [0, 1] [6, 4]) ∧ ¬ (Enc.ord 0 [0, 1] [1, 1]).Alike (Enc.ord 0 [0, 1] [3, 1]) := by
  constructor
  · refine ⟨rfl, rfl, rfl, ?_⟩
    simp only [logCumOdds, cumsum, List.map_cons, List.map_nil, List.sum_cons, List.sum_nil, List.dropLast]
    norm_num
  · rintro ⟨-, -, -, h⟩
    simp only [logCumOdds, cumsum, List.map_cons, List.map_nil, List.sum_cons, List.sum_nil, List.dropLast, List.cons.injEq] at h
    norm_num at h
    have := Real.log_pos (show (1 : ℝ) < 3 by norm_num)
    linarith [h]

end Verif.Pytorch
