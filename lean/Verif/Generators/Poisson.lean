import Mathlib.Analysis.SpecialFunctions.Log.Basic
import Mathlib.Algebra.Order.Monoid.WithTop

/-!
# Model of `_sample_poisson` and its specification (C57)

The sampler works on an array of any size; `n` is its number of elements.
-/

namespace Verif.Generators

open Real

/-- `np.log`, minus infinity at 0. -/
noncomputable def npLog (x : ℝ) : WithBot ℝ := if x = 0 then ⊥ else (log x : ℝ)

/-- `np.logaddexp`. -/
noncomputable def logaddexp (a b : ℝ) : ℝ := log (exp a + exp b)

/-- The arrays of the loop. -/
structure PSt (n : ℕ) where
  cond : Fin n → ℝ
  budget : Fin n → ℝ
  count : Fin n → ℕ
  mask : Fin n → Bool

/-- `log_uni >= log_intensity_budget`, for one element. -/
noncomputable def unfinished {n : ℕ} (u : Fin n → ℝ) (budget : Fin n → ℝ) (i : Fin n) : Bool :=
  open Classical in decide ((budget i : WithBot ℝ) ≤ npLog (u i))

/-- `count.max() < max_count`. -/
def belowMax {n : ℕ} (maxCount : ℕ) (count : Fin n → ℕ) : Bool := decide (∀ i, count i < maxCount)

/-- The body of the loop: `structure/data_generators/core.py:456-461`.  (The numbers at 0 are never used: an
element of rate 0 is never masked, as the logarithm of a uniform number is negative.) -/
noncomputable def pStep {n : ℕ} (rate u : Fin n → ℝ) (s : PSt n) : PSt n :=
  let mask := unfinished u s.budget
  let count := fun i => if mask i then s.count i + 1 else s.count i
  let cond := fun i => if mask i then s.cond i + log (rate i / count i) else s.cond i
  let budget := fun i => if mask i then logaddexp (s.budget i) (cond i) else s.budget i
  ⟨cond, budget, count, mask⟩

/-- The loop, at most `fuel` times; `none` is: not finished yet: `structure/data_generators/core.py:455-461`. -/
noncomputable def pLoop {n : ℕ} (maxCount : ℕ) (rate u : Fin n → ℝ) : ℕ → PSt n → Option (PSt n)
  | 0, s => if (∃ i, s.mask i) ∧ belowMax maxCount s.count then none else some s
  | fuel + 1, s =>
    if (∃ i, s.mask i) ∧ belowMax maxCount s.count then pLoop maxCount rate u fuel (pStep rate u s) else some s

/-- `_sample_poisson`: `structure/data_generators/core.py:431-463`, with at most `fuel` turns of the loop. -/
noncomputable def samplePoisson {n : ℕ} (maxCount : ℕ) (rate u : Fin n → ℝ) (fuel : ℕ) : Option (Fin n → ℕ) :=
  let cond := fun i => -rate i
  (pLoop maxCount rate u fuel ⟨cond, cond, fun _ => 0, unfinished u cond⟩).map PSt.count

/-! ### Specification -/

/-- The distribution function of the Poisson distribution. -/
noncomputable def poissonCdf (rate : ℝ) (k : ℕ) : ℝ :=
  ((List.range (k + 1)).map fun m => exp (-rate) * rate ^ m / (Nat.factorial m : ℝ)).sum

/-! ### Proofs -/

theorem poissonCdf_succ (rate : ℝ) (k : ℕ) :
    poissonCdf rate (k + 1) = poissonCdf rate k + exp (-rate) * rate ^ (k + 1) / (Nat.factorial (k + 1) : ℝ) := by
  unfold poissonCdf
  rw [List.range_succ (n := k + 1), List.map_append, List.sum_append]
  simp

theorem poissonCdf_pos {rate : ℝ} (h : 0 ≤ rate) (k : ℕ) : 0 < poissonCdf rate k := by
  induction k with
  | zero => simp [poissonCdf, exp_pos]
  | succ k ih =>
    rw [poissonCdf_succ]
    have : 0 ≤ exp (-rate) * rate ^ (k + 1) / (Nat.factorial (k + 1) : ℝ) := by positivity
    linarith

theorem poissonCdf_mono {rate : ℝ} (h : 0 ≤ rate) : Monotone (poissonCdf rate) := by
  refine monotone_nat_of_le_succ fun k => ?_
  rw [poissonCdf_succ]
  have : 0 ≤ exp (-rate) * rate ^ (k + 1) / (Nat.factorial (k + 1) : ℝ) := by positivity
  linarith

theorem unfinished_iff {n : ℕ} {u budget : Fin n → ℝ} (hu : ∀ i, 0 ≤ u i) {i : Fin n} {c : ℝ} (hc : 0 < c)
    (hb : budget i = log c) : unfinished u budget i = true ↔ c ≤ u i := by
  unfold unfinished npLog
  rw [decide_eq_true_eq, hb]
  split
  · rename_i h0
    rw [h0]
    simp [hc]
  · rename_i h0
    rw [WithBot.coe_le_coe, log_le_log_iff hc (lt_of_le_of_ne (hu i) (Ne.symm h0))]

/-- What holds after `k` turns: elements not finished have counted to `k`, the others are done. -/
structure PInv {n : ℕ} (rate u : Fin n → ℝ) (k : ℕ) (s : PSt n) : Prop where
  below : ∀ i, ∀ j < s.count i, poissonCdf (rate i) j ≤ u i
  done : ∀ i, s.count i < k → u i < poissonCdf (rate i) (s.count i)
  le : ∀ i, s.count i ≤ k
  budget : ∀ i, s.budget i = log (poissonCdf (rate i) (s.count i))
  cond : ∀ i, 0 < rate i ∨ s.count i = 0 →
    exp (s.cond i) = exp (-rate i) * rate i ^ s.count i / (Nat.factorial (s.count i) : ℝ)
  pos : ∀ i, s.count i ≠ 0 → 0 < rate i

theorem pStep_inv {n : ℕ} {rate u : Fin n → ℝ} (hr : ∀ i, 0 ≤ rate i) (hu : ∀ i, 0 ≤ u i ∧ u i < 1) {k : ℕ} {s : PSt n}
    (h : PInv rate u k s) : PInv rate u (k + 1) (pStep rate u s) := by
  have hm : ∀ i, unfinished u s.budget i = true ↔ poissonCdf (rate i) (s.count i) ≤ u i := fun i =>
    unfinished_iff (fun i => (hu i).1) (poissonCdf_pos (hr i) _) (h.budget i)
  have hpos : ∀ i, unfinished u s.budget i = true → 0 < rate i := by
    intro i hi
    rcases (hr i).lt_or_eq with h1 | h1
    · exact h1
    · by_cases hc : s.count i = 0
      · have h2 := (hm i).1 hi
        rw [hc, ← h1] at h2
        simp [poissonCdf] at h2
        exact absurd h2 (not_le.2 (hu i).2)
      · exact h.pos i hc
  have hcond : ∀ i, unfinished u s.budget i = true → exp (s.cond i + log (rate i / ((s.count i + 1 : ℕ) : ℝ))) =
      exp (-rate i) * rate i ^ (s.count i + 1) / (Nat.factorial (s.count i + 1) : ℝ) := by
    intro i hi
    have h1 := hpos i hi
    have h2 : (0 : ℝ) < ((s.count i + 1 : ℕ) : ℝ) := by positivity
    rw [exp_add, exp_log (div_pos h1 h2), h.cond i (Or.inl h1), Nat.factorial_succ, pow_succ]
    push_cast
    field_simp
  constructor
  · intro i j hj
    change j < (if unfinished u s.budget i then _ else _) at hj
    split at hj
    · rename_i hi
      rcases Nat.lt_succ_iff_lt_or_eq.1 hj with h1 | rfl
      · exact h.below i j h1
      · exact (hm i).1 hi
    · exact h.below i j hj
  · intro i hi
    change (if unfinished u s.budget i then s.count i + 1 else s.count i) < k + 1 at hi
    change u i < poissonCdf (rate i) (if unfinished u s.budget i then s.count i + 1 else s.count i)
    split
    · rename_i hm'
      rw [if_pos hm'] at hi
      exact absurd (h.done i (by omega)) (not_lt.2 ((hm i).1 hm'))
    · rename_i hm'
      exact not_le.1 fun hc => hm' ((hm i).2 hc)
  · intro i
    change (if unfinished u s.budget i then s.count i + 1 else s.count i) ≤ k + 1
    have := h.le i
    split <;> omega
  · intro i
    change (if unfinished u s.budget i then _ else _) = log (poissonCdf (rate i) (if unfinished u s.budget i then s.count i + 1 else s.count i))
    split
    · rename_i hi
      simp only [hi, if_true]
      rw [logaddexp, h.budget i, exp_log (poissonCdf_pos (hr i) _), hcond i hi, poissonCdf_succ]
    · exact h.budget i
  · intro i hi
    change exp (if unfinished u s.budget i then s.cond i + log (rate i / ((if unfinished u s.budget i then s.count i + 1 else s.count i : ℕ) : ℝ)) else s.cond i) =
      exp (-rate i) * rate i ^ (if unfinished u s.budget i then s.count i + 1 else s.count i) /
        (Nat.factorial (if unfinished u s.budget i then s.count i + 1 else s.count i) : ℝ)
    change 0 < rate i ∨ (if unfinished u s.budget i then s.count i + 1 else s.count i) = 0 at hi
    split
    · rename_i hm'
      exact hcond i hm'
    · rename_i hm'
      rw [if_neg hm'] at hi
      exact h.cond i hi
  · intro i hi
    change (if unfinished u s.budget i then s.count i + 1 else s.count i) ≠ 0 at hi
    by_cases hm' : unfinished u s.budget i = true
    · exact hpos i hm'
    · rw [if_neg hm'] at hi
      exact h.pos i hi

/-- The mask is that of the beginning of the turn: an element not masked is done. -/
theorem pLoop_spec {n : ℕ} {rate u : Fin n → ℝ} (hr : ∀ i, 0 ≤ rate i) (hu : ∀ i, 0 ≤ u i ∧ u i < 1) (maxCount : ℕ)
    (fuel k : ℕ) (s : PSt n) (h : PInv rate u k s) (hmask : ∀ i, s.mask i = false → u i < poissonCdf (rate i) (s.count i))
    (hk : k ≤ maxCount) (hcnt : (∃ i, s.mask i = true) → ∃ i, s.count i = k) (hf : maxCount - k < fuel) :
    ∃ s', pLoop maxCount rate u fuel s = some s' ∧ ∀ i, (∀ j < s'.count i, poissonCdf (rate i) j ≤ u i) ∧
      s'.count i ≤ maxCount ∧ (s'.count i < maxCount → u i < poissonCdf (rate i) (s'.count i)) := by
  induction fuel generalizing k s with
  | zero => omega
  | succ fuel ih =>
    rw [pLoop]
    split
    · rename_i hc
      have hlt : k < maxCount := by
        obtain ⟨i, hi⟩ := hcnt hc.1
        have := hc.2
        simp only [belowMax, decide_eq_true_eq] at this
        have := this i
        omega
      have h' := pStep_inv hr hu h
      have hm : ∀ i, (pStep rate u s).mask i = false → u i < poissonCdf (rate i) ((pStep rate u s).count i) := by
        intro i hi
        change unfinished u s.budget i = false at hi
        change u i < poissonCdf (rate i) (if unfinished u s.budget i then s.count i + 1 else s.count i)
        rw [hi, if_neg (by simp)]
        have := unfinished_iff (fun i => (hu i).1) (poissonCdf_pos (hr i) (s.count i)) (h.budget i)
        rw [hi] at this
        simpa using this
      by_cases hnext : ∃ i, (pStep rate u s).mask i = true
      · refine ih (k + 1) _ h' hm hlt ?_ (by omega)
        rintro ⟨i, hi⟩
        refine ⟨i, ?_⟩
        have h1 : unfinished u s.budget i = true := hi
        change (if unfinished u s.budget i then s.count i + 1 else s.count i) = k + 1
        rw [if_pos h1]
        have h2 := unfinished_iff (fun i => (hu i).1) (poissonCdf_pos (hr i) (s.count i)) (h.budget i)
        have h3 := h2.1 h1
        have h4 := h.le i
        by_contra hne
        exact absurd (h.done i (by omega)) (not_lt.2 h3)
      · refine ⟨pStep rate u s, ?_, ?_⟩
        · cases fuel with
          | zero => omega
          | succ fuel => rw [pLoop, if_neg (fun hc => hnext hc.1)]
        · intro i
          have hi : (pStep rate u s).mask i = false := by
            by_contra hc
            exact hnext ⟨i, by simpa using hc⟩
          refine ⟨h'.below i, ?_, fun _ => hm i hi⟩
          have := h'.le i
          omega
    · rename_i hc
      refine ⟨s, rfl, fun i => ⟨h.below i, (h.le i).trans hk, fun hi => ?_⟩⟩
      by_cases hm : s.mask i = true
      · have : ¬ ∀ i, s.count i < maxCount := fun hb => hc ⟨⟨i, hm⟩, by simp only [belowMax, decide_eq_true_eq]; exact hb⟩
        simp only [not_forall, not_lt] at this
        obtain ⟨i', hi'⟩ := this
        have := h.le i'
        exact h.done i (by omega)
      · exact hmask i (by simpa using hm)

/-- **C57.** For every array of rates and uniform numbers the sampler ends (after at most `maxCount + 1` turns), and
every count is the smallest `k` with `u < CDF(k)`, or `maxCount` if there is none below it. -/
theorem samplePoisson_correct {n : ℕ} {rate u : Fin n → ℝ} (hr : ∀ i, 0 ≤ rate i) (hu : ∀ i, 0 ≤ u i ∧ u i < 1)
    {maxCount fuel : ℕ} (hf : maxCount + 1 ≤ fuel) :
    ∃ count, samplePoisson maxCount rate u fuel = some count ∧ ∀ i, (∀ j < count i, poissonCdf (rate i) j ≤ u i) ∧
      count i ≤ maxCount ∧ (count i < maxCount → u i < poissonCdf (rate i) (count i)) := by
  have h0 : ∀ i, poissonCdf (rate i) 0 = exp (-rate i) := fun i => by simp [poissonCdf]
  have hinv : PInv rate u 0 ⟨fun i => -rate i, fun i => -rate i, fun _ => 0, unfinished u fun i => -rate i⟩ :=
    ⟨fun i j hj => absurd hj (by simp), fun i hi => absurd hi (by simp), fun i => le_rfl,
      fun i => by simp [h0], fun i _ => by simp, fun i hi => absurd rfl hi⟩
  obtain ⟨s, hs, h⟩ := pLoop_spec hr hu maxCount fuel 0 _ hinv (by
    intro i hi
    have := unfinished_iff (budget := fun i => -rate i) (fun i => (hu i).1) (poissonCdf_pos (hr i) 0) (i := i)
      (by rw [h0, log_exp])
    replace hi : unfinished u (fun i => -rate i) i = false := hi
    rw [hi] at this
    simpa using this) (Nat.zero_le _) (by
    rintro ⟨i, -⟩
    exact ⟨i, rfl⟩) (by omega)
  refine ⟨s.count, ?_, h⟩
  unfold samplePoisson
  dsimp only
  rw [hs]
  rfl

/-- The count is determined by that. -/
theorem poisson_unique {rate u : ℝ} {maxCount c c' : ℕ}
    (h : (∀ j < c, poissonCdf rate j ≤ u) ∧ c ≤ maxCount ∧ (c < maxCount → u < poissonCdf rate c))
    (h' : (∀ j < c', poissonCdf rate j ≤ u) ∧ c' ≤ maxCount ∧ (c' < maxCount → u < poissonCdf rate c')) : c = c' := by
  rcases Nat.lt_trichotomy c c' with hc | hc | hc
  · exact absurd (h'.1 c hc) (not_le.2 (h.2.2 (by omega)))
  · exact hc
  · exact absurd (h.1 c' hc) (not_le.2 (h'.2.2 (by omega)))

-- rate 0 gives the count 0, and a number below `exp (-rate)` too
example : ∃ count, samplePoisson (n := 2) 5000 (fun i => if i = 0 then 0 else log 2) (fun _ => 1 / 2) 5001 = some count ∧
    count 0 = 0 ∧ count 1 = 1 := by
  have hl : 0 ≤ log 2 := log_nonneg (by norm_num)
  obtain ⟨count, h, hc⟩ := samplePoisson_correct (n := 2) (rate := fun i => if i = 0 then 0 else log 2) (u := fun _ => 1 / 2)
    (fun i => by split_ifs; exacts [le_rfl, hl]) (fun _ => by norm_num) (maxCount := 5000) (fuel := 5001) le_rfl
  refine ⟨count, h, poisson_unique (hc 0) ⟨by simp, by norm_num, fun _ => ?_⟩, poisson_unique (hc 1) ⟨?_, by norm_num, fun _ => ?_⟩⟩
  · norm_num [poissonCdf]
  · intro j hj
    rw [Nat.lt_one_iff.1 hj]
    norm_num [poissonCdf, exp_neg, exp_log]
  · have := log_pos (by norm_num : (1 : ℝ) < 2)
    norm_num [poissonCdf, exp_neg, exp_log, List.range_succ]
    exact this

end Verif.Generators
