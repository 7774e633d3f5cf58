import Verif.Generators.SemSpec
import Mathlib.Data.List.Sort
import Mathlib.Data.List.OfFn
import Mathlib.Data.List.FinRange
import Mathlib.Data.List.GetD
import Mathlib.Tactic.Linarith
import Mathlib.Tactic.NormNum
import Mathlib.Tactic.Positivity

/-!
# The labels of binary variables are balanced (C76)
-/

namespace Verif.Generators

variable {n : ℕ}

theorem ones_labelsAbove (latent : Col n) (t : ℝ) :
    ones (labelsAbove latent t) = ((List.finRange n).filter fun r => t < latent r).length := by
  unfold ones labelsAbove
  congr 1
  refine List.filter_congr fun r _ => ?_
  by_cases h : t < latent r <;> simp [h]

theorem ones_add_zeros (latent : Col n) (t : ℝ) : ones (labelsAbove latent t) + zeros (labelsAbove latent t) = n := by
  have h : zeros (labelsAbove latent t) = ((List.finRange n).filter fun r => !decide (t < latent r)).length := by
    unfold zeros labelsAbove
    congr 1
    refine List.filter_congr fun r _ => ?_
    by_cases h : t < latent r <;> simp [h]
  rw [ones_labelsAbove, h, ← List.length_append, (List.filter_append_perm _ _).length_eq, List.length_finRange]

theorem ones_sorted (latent : Col n) (t : ℝ) :
    ones (labelsAbove latent t) = (((List.ofFn latent).insertionSort (· ≤ ·)).filter fun a => t < a).length := by
  rw [ones_labelsAbove, ((List.perm_insertionSort _ _).filter _).length_eq, List.ofFn_eq_map, List.filter_map, List.length_map]
  rfl

theorem filter_sorted_length {l : List ℝ} (hl : l.Pairwise (· < ·)) {i : ℕ} (hi : i + 1 < l.length) {t : ℝ} (h1 : l[i] ≤ t)
    (h2 : t < l[i + 1]) : (l.filter fun a => t < a).length = l.length - (i + 1) := by
  have hs : ∀ (a b : ℕ) (ha : a < l.length) (hb : b < l.length), a < b → l[a] < l[b] := fun a b ha hb hab =>
    List.pairwise_iff_getElem.1 hl a b ha hb hab
  conv_lhs => rw [← List.take_append_drop (i + 1) l]
  rw [List.filter_append, List.filter_eq_nil_iff.2, List.filter_eq_self.2]
  · simp
  · intro a ha
    obtain ⟨k, hk, rfl⟩ := List.mem_iff_getElem.1 ha
    rw [List.getElem_drop, decide_eq_true_eq]
    rcases Nat.eq_zero_or_pos k with rfl | hk0
    · exact h2
    · exact h2.trans (hs _ _ _ _ (by omega))
  · intro a ha
    obtain ⟨k, hk, rfl⟩ := List.mem_iff_getElem.1 ha
    rw [List.length_take] at hk
    rw [List.getElem_take, decide_eq_true_eq, not_lt]
    rcases Nat.lt_or_ge k i with hki | hki
    · exact (hs _ _ _ _ hki).le.trans h1
    · obtain rfl : k = i := by omega
      exact h1

theorem ones_quantile {latent : Col n} (hinj : Function.Injective latent) (hn : 2 ≤ n) {q : ℝ} (h0 : 0 ≤ q) (h1 : q < 1) :
    ones (labelsAbove latent (quantile latent q)) = n - (⌊((n : ℝ) - 1) * q⌋₊ + 1) ∧ ⌊((n : ℝ) - 1) * q⌋₊ + 1 < n := by
  have hn' : (2 : ℝ) ≤ n := by exact_mod_cast hn
  have hh0 : 0 ≤ ((n : ℝ) - 1) * q := mul_nonneg (by linarith) h0
  have hfl : (⌊((n : ℝ) - 1) * q⌋₊ : ℝ) ≤ ((n : ℝ) - 1) * q := Nat.floor_le hh0
  have hfu : ((n : ℝ) - 1) * q < ⌊((n : ℝ) - 1) * q⌋₊ + 1 := Nat.lt_floor_add_one _
  have hlt : ⌊((n : ℝ) - 1) * q⌋₊ + 1 < n := by
    have : ((n : ℝ) - 1) * q < n - 1 := by nlinarith
    have h3 : (⌊((n : ℝ) - 1) * q⌋₊ : ℝ) + 1 < n := by linarith
    exact_mod_cast h3
  refine ⟨?_, hlt⟩
  have hlen : ((List.ofFn latent).insertionSort (· ≤ ·)).length = n := by rw [List.length_insertionSort, List.length_ofFn]
  have hsort : ((List.ofFn latent).insertionSort (· ≤ ·)).Pairwise (· < ·) := by
    have hnd : ((List.ofFn latent).insertionSort (· ≤ ·)).Nodup :=
      (List.perm_insertionSort _ _).nodup_iff.2 (List.nodup_ofFn.2 hinj)
    exact ((List.pairwise_insertionSort (· ≤ ·) (List.ofFn latent)).and hnd).imp fun h => lt_of_le_of_ne h.1 h.2
  have hi1 : ⌊((n : ℝ) - 1) * q⌋₊ + 1 < ((List.ofFn latent).insertionSort (· ≤ ·)).length := by rw [hlen]; exact hlt
  have hq : quantile latent q = ((List.ofFn latent).insertionSort (· ≤ ·))[⌊((n : ℝ) - 1) * q⌋₊] +
      (((n : ℝ) - 1) * q - ⌊((n : ℝ) - 1) * q⌋₊) * (((List.ofFn latent).insertionSort (· ≤ ·))[⌊((n : ℝ) - 1) * q⌋₊ + 1] -
        ((List.ofFn latent).insertionSort (· ≤ ·))[⌊((n : ℝ) - 1) * q⌋₊]) := by
    unfold quantile
    dsimp only
    rw [List.getD_eq_getElem _ _ hi1, List.getD_eq_getElem _ _ (Nat.lt_of_succ_lt hi1)]
  have hstep := List.pairwise_iff_getElem.1 hsort _ _ (Nat.lt_of_succ_lt hi1) hi1 (Nat.lt_succ_self _)
  rw [ones_sorted, filter_sorted_length hsort hi1 (by rw [hq]; nlinarith) (by rw [hq]; nlinarith), hlen]

/-- **C76.** If no two rows have the same latent value, each label gets at least 5% of the rows (but one). -/
theorem binaryLabels_balanced {latent : Col n} (hinj : Function.Injective latent) (hn : 2 ≤ n) :
    5 / 100 * ((n : ℝ) - 1) ≤ ones (binaryLabels latent) ∧ 5 / 100 * ((n : ℝ) - 1) ≤ zeros (binaryLabels latent) := by
  have hn' : (2 : ℝ) ≤ n := by exact_mod_cast hn
  have key : ∀ t, (zeros (labelsAbove latent t) : ℝ) = n - ones (labelsAbove latent t) := fun t => by
    have := ones_add_zeros latent t
    have : (ones (labelsAbove latent t) : ℝ) + zeros (labelsAbove latent t) = n := by exact_mod_cast this
    linarith
  have hq : ∀ q : ℝ, 0 ≤ q → q < 1 → (ones (labelsAbove latent (quantile latent q)) : ℝ) = n - (⌊((n : ℝ) - 1) * q⌋₊ + 1) := by
    intro q h0 h1
    obtain ⟨h2, h3⟩ := ones_quantile hinj hn h0 h1
    rw [h2, Nat.cast_sub h3.le]
    push_cast
    ring
  unfold binaryLabels
  dsimp only
  have hmean : colMean (labelsAbove latent 0) = ones (labelsAbove latent 0) / n := by
    unfold colMean
    congr 1
    rw [List.ofFn_eq_map]
    unfold ones
    generalize List.finRange n = l
    induction l with
    | nil => simp
    | cons a l ih =>
      rw [List.map_cons, List.sum_cons, ih, List.filter_cons]
      by_cases h : 0 < latent a <;> simp [labelsAbove, h, add_comm]
  rw [hmean]
  split
  · rw [key, hq _ (by norm_num) (by norm_num)]
    have h1 := Nat.floor_le (show 0 ≤ ((n : ℝ) - 1) * (5 / 100) by nlinarith)
    have h2 := Nat.lt_floor_add_one (((n : ℝ) - 1) * (5 / 100))
    constructor
    · have h3 : ((n : ℝ) - 1) * (5 / 100) * 2 ≤ n - 1 := by nlinarith
      linarith
    · linarith
  · split
    · rw [key, hq _ (by norm_num) (by norm_num)]
      have h1 := Nat.floor_le (show 0 ≤ ((n : ℝ) - 1) * (1 - 5 / 100) by nlinarith)
      have h2 := Nat.lt_floor_add_one (((n : ℝ) - 1) * (1 - 5 / 100))
      constructor <;> linarith
    · rename_i h1 h2
      rw [not_lt, le_div_iff₀ (by linarith)] at h1
      rw [not_lt, div_le_iff₀ (by linarith)] at h2
      rw [key]
      constructor <;> linarith

end Verif.Generators
