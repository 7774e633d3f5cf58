import Verif.Sklearn.Rows
import Verif.Sklearn.Examples

/-!
# Concrete cases for C117
-/

namespace Verif.Sklearn

open Verif.Str Verif.Pytorch
open Verif.Dynotears (SameRows)
open Verif.Notears (RespectsBounds)

/-- A measure of spread like the one of `StandardScaler` depends on relative frequencies only. -/
example : FrequencyOnly fun l => (l.map fun x => x ^ 2).sum / l.length - (l.sum / l.length) ^ 2 := by
  intro l l' h
  have h2 := mean_rat (sameRows_map h fun x => x ^ 2)
  rw [List.length_map, List.length_map] at h2
  simp only [h2, mean_rat h]

/-- The sum depends on more than relative frequencies. -/
example : ¬ FrequencyOnly List.sum := by
  intro h
  have := h [1] [1, 1] ⟨2, 1, by decide, by decide, by decide⟩
  revert this
  decide +kernel

/-- `exHeap` with a second table and a second series: the rows of the first ones twice, in another order. -/
def exHeapTwice : Heap :=
  ⟨[[['b']]], [[(['b'], .poiss), (['a'], .cont)]], [[[1, 0], [2, 1], [3, 5], [4, 2]], [[4, 2], [3, 5], [2, 1], [1, 0], [1, 0], [2, 1], [3, 5], [4, 2]]],
    [[1, 3, 2, 5], [5, 2, 3, 1, 1, 3, 2, 5]]⟩

/-- The hypotheses of `reg_frequencies` are met, and fitting succeeds for both data sets. -/
theorem reg_rows_example : ∃ ext : Ext, RespectsBounds ext.minimize ∧ (∀ es, (ext.order es).Perm es) ∧ FrequencyOnly ext.std ∧
    exCall.WF (exReg false) exHeapTwice ∧
    (exHeapTwice.series.getD exCall.y []).length = (exHeapTwice.tables.getD exCall.x []).length ∧
    (exHeapTwice.series.getD 1 []).length = (exHeapTwice.tables.getD 1 []).length ∧
    SameRows ((exHeapTwice.tables.getD exCall.x []).zip (exHeapTwice.series.getD exCall.y []))
      ((exHeapTwice.tables.getD 1 []).zip (exHeapTwice.series.getD 1 [])) ∧
    (regFit ext (exReg false) exHeapTwice exCall).2.2 = none ∧
    ∃ f', (regFit ext (exReg false) exHeapTwice { exCall with x := 1, y := 1 }).2.1.fitted = some f' ∧
      ∃ d ∈ f'.graph.edges, d.src = ['a'] ∧ d.dst = ['y'] := by
  obtain ⟨ext, f, h1, h2, h3, h4, h5, -⟩ := reg_example false
  have hstd : FrequencyOnly (fun _ : List ℚ => (0 : ℚ)) := fun _ _ _ => rfl
  have hfit : Fits { ext with std := fun _ => 0 } (exReg false) exHeapTwice exCall f := by
    rw [fits_iff] at h4 ⊢
    exact h4
  have hsr : SameRows ((exHeapTwice.tables.getD exCall.x []).zip (exHeapTwice.series.getD exCall.y []))
      ((exHeapTwice.tables.getD 1 []).zip (exHeapTwice.series.getD 1 [])) := ⟨2, 1, by decide, by decide, by decide +kernel⟩
  have hf1 : (regFit { ext with std := fun _ => 0 } (exReg false) exHeapTwice exCall).2 = ({ exReg false with fitted := some f }, none) := hfit
  have key := reg_frequencies (ext := { ext with std := fun _ => 0 }) (order' := ext.order) (h := exHeapTwice) (c := exCall) (x' := 1) (y' := 1)
    h2 h2 hstd (exReg false) h3 rfl rfl hsr
  refine ⟨{ ext with std := fun _ => 0 }, h1, h2, hstd, h3, rfl, rfl, hsr, by rw [hf1], ?_⟩
  obtain ⟨-, f₁, f', e1, e2, -, e3⟩ := key.2 (by rw [hf1])
  rw [hf1] at e1
  cases e1
  obtain ⟨d, hd, hd'⟩ := h5 rfl
  exact ⟨f', e2, d, (e3 fun _ => rfl).1.mem_iff.1 hd, hd'⟩

/-- The hypotheses of `clf_frequencies` are met, and fitting succeeds for both data sets. -/
theorem clf_rows_example : ∃ ext : Ext, RespectsBounds ext.minimize ∧ (∀ es, (ext.order es).Perm es) ∧ FrequencyOnly ext.std ∧
    WellFormed [['a'], ['b']] none (exHeapTwice.tables.getD 0 []) (exClf.est.params.schema.map fun r => exHeapTwice.schemas.getD r []) ∧
    SameRows ((exHeapTwice.tables.getD 0 []).zip [5, 9, 7, 5]) ((exHeapTwice.tables.getD 1 []).zip [5, 7, 9, 5, 5, 9, 7, 5]) ∧
    (clfFit ext exClf exHeapTwice [['a'], ['b']] 0 none [5, 9, 7, 5]).2.2 = none ∧
    (clfFit ext exClf exHeapTwice [['a'], ['b']] 1 none [5, 7, 9, 5, 5, 9, 7, 5]).2.2 = none := by
  obtain ⟨ext, h', k', h1, h2, h3, -, -, h6, -⟩ := clf_example
  have hsr : SameRows ((exHeapTwice.tables.getD 0 []).zip [5, 9, 7, 5]) ((exHeapTwice.tables.getD 1 []).zip [5, 7, 9, 5, 5, 9, 7, 5]) :=
    ⟨2, 1, by decide, by decide, by decide +kernel⟩
  have e1 : (clfFit { ext with std := fun _ => 0 } exClf exHeapTwice [['a'], ['b']] 0 none [5, 9, 7, 5]).2.2 = none := by
    have h : (clfFit ext exClf exHeap [['a'], ['b']] 0 none [5, 9, 7, 5]).2.2 = none := by rw [h3]
    unfold clfFit at h ⊢
    rw [if_neg (by decide), if_neg (by decide)] at h ⊢
    simp only [(baseFit_spec _ _ _ _).2] at h ⊢
    exact h
  have key := (clf_frequencies (ext := { ext with std := fun _ => 0 }) (order' := ext.order) h2 h2 (fun _ _ _ => rfl) exClf (h := exHeapTwice) h6 rfl rfl hsr).1
  exact ⟨{ ext with std := fun _ => 0 }, h1, h2, fun _ _ _ => rfl, h6, hsr, e1, key ▸ e1⟩

end Verif.Sklearn
