import Verif.Evaluation.Extremes
import Verif.Evaluation.Witness

/-!
# C162: concrete cases

The child is 2 if the parent is 0, and 3 if the parent is 1.
-/

namespace Verif.Evaluation.ExtremesWitness

open Verif.Network Verif.Str Verif.Evaluation.Witness

/-- The area that `roc_auc` returns for the network of `good` on some data. -/
def areaOn (d : DF Str ℚ) : Except Err (Option ℚ) :=
  (rocAuc id (fun _ => .ok fun _ => false) int id some numStr [2, 3] [3, 2] (net₂ good) [d] 0 ['n']).2.map (·.2)

/-- Data in which every prediction is wrong. -/
def wrong : DF Str ℚ := ⟨[p, ['n']], [row good 0 3, row good 1 2, row good 1 2]⟩

/-- Data with one right and one wrong prediction. -/
def mixed : DF Str ℚ := ⟨[p, ['n']], [row good 0 2, row good 1 2]⟩

/-- The theorem applies to the data of `good`, and to the wrong ones. -/
theorem extremes_apply (d : DF Str ℚ) (hd : d = df good ∨ d = wrong ∨ d = mixed) :
    ∃ area, areaOn d = .ok (some area) ∧ (area = 1 ↔ TrueFalse tab ['n'] [2, 3] d.rows fun x y => y < x) ∧
      (area = 0 ↔ TrueFalse tab ['n'] [2, 3] d.rows fun x y => x < y) := by
  have hcols : ∀ q ∈ ['n'] :: tab.parents, q ∈ d.cols := by rcases hd with rfl | rfl | rfl <;> decide +kernel
  have hk : ∀ r ∈ d.rows, ∀ q ∈ ['n'] :: tab.parents, ∃ s ∈ statesOf (net₁ good) q, r q = some s := by
    rcases hd with rfl | rfl | rfl <;> decide +kernel
  have hrows : d.rows ≠ [] := by rcases hd with rfl | rfl | rfl <;> exact List.cons_ne_nil _ _
  obtain ⟨h', curve, area, he, h1, h0, -⟩ := rocAuc_extremes int_injective isStructure reach₁ nonempty fit_ok cpds_ok
    (v := ['n']) (t := tab) (by simp [tabs]) (h := [d]) (ref := 0) (df := d) rfl hcols hk id (fun _ => .ok fun _ => false) (num := id)
    (toNum := some) (fun _ => rfl) numStr (order := [2, 3]) (order' := [3, 2]) (by decide +kernel) (by decide +kernel) (by decide +kernel)
    (by decide +kernel) hrows (by decide +kernel)
  rw [show statesOf (net₁ good) ['n'] = [2, 3] from states_n] at h1 h0
  exact ⟨area, by rw [areaOn, he]; rfl, h1, h0⟩

/-- So the predictions of `good` separate the true states, those of the wrong data separate them the other way, and the third do neither. -/
theorem separated : (TrueFalse tab ['n'] [2, 3] (df good).rows fun x y => y < x) ∧ (TrueFalse tab ['n'] [2, 3] wrong.rows fun x y => x < y) ∧
    (¬ TrueFalse tab ['n'] [2, 3] mixed.rows fun x y => y < x) ∧ ¬ TrueFalse tab ['n'] [2, 3] mixed.rows fun x y => x < y := by
  have e1 : areaOn (df good) = .ok (some 1) := by decide +kernel
  have e2 : areaOn wrong = .ok (some 0) := by decide +kernel
  have e3 : areaOn mixed = .ok (some (1 / 2)) := by decide +kernel
  obtain ⟨a1, h1, i1, -⟩ := extremes_apply (df good) (Or.inl rfl)
  obtain ⟨a2, h2, -, i2⟩ := extremes_apply wrong (Or.inr (Or.inl rfl))
  obtain ⟨a3, h3, i3, j3⟩ := extremes_apply mixed (Or.inr (Or.inr rfl))
  rw [e1] at h1
  rw [e2] at h2
  rw [e3] at h3
  cases h1
  cases h2
  cases h3
  exact ⟨i1.1 rfl, i2.1 rfl, fun h => absurd (i3.2 h) (by norm_num), fun h => absurd (j3.2 h) (by norm_num)⟩

end Verif.Evaluation.ExtremesWitness
