import Verif.Notears.Spec
import Mathlib.Tactic.Ring
import Mathlib.Tactic.Linarith
import Mathlib.Tactic.Positivity

/-!
# The learning loop: invariants and termination
-/

namespace Verif.Notears

section
variable {K : Type} [Field K] [LinearOrder K]
variable {P : Problem K} {minimize : Minimizer K} {bnds : List (Bound K)}

/-- The loop condition. -/
def Go (s : St K) : Prop := s.rho < 10 ^ 20 ∧ (quarter s.h < s.hNew ∨ s.hNew = ⊤)

/-- One round of the inner loop. -/
def round (P : Problem K) (minimize : Minimizer K) (bnds : List (Bound K)) (s : St K) : St K :=
  let wNew := minimize s.calls (P.func s.rho s.alpha) (P.grad s.rho s.alpha) s.wEst bnds
  { s with
    wNew := wNew, hNew := P.score wNew
    rho := if quarter s.h < P.score wNew then s.rho * 10 else s.rho
    calls := s.calls + 1 }

theorem inner_stop {fuel : ℕ} {s : St K} (h : ¬ Go s) : inner P minimize bnds fuel s = some s := by
  unfold Go at h
  cases fuel <;> rw [inner, if_neg h]

theorem inner_go {fuel : ℕ} {s : St K} (h : Go s) :
    inner P minimize bnds (fuel + 1) s = inner P minimize bnds fuel (round P minimize bnds s) := by
  unfold Go at h
  rw [inner, if_pos h]
  rfl

theorem inner_zero {s : St K} (h : Go s) : inner P minimize bnds 0 s = none := by
  unfold Go at h
  rw [inner, if_pos h]

theorem inner_induct (I : St K → Prop) (hI : ∀ s, I s → Go s → I (round P minimize bnds s)) {fuel : ℕ}
    {s s' : St K} (h : inner P minimize bnds fuel s = some s') (hs : I s) : I s' ∧ ¬ Go s' := by
  induction fuel generalizing s with
  | zero =>
    by_cases hg : Go s
    · rw [inner_zero hg] at h; cases h
    · rw [inner_stop hg] at h; cases h; exact ⟨hs, hg⟩
  | succ fuel ih =>
    by_cases hg : Go s
    · rw [inner_go hg] at h; exact ih h (hI s hs hg)
    · rw [inner_stop hg] at h; cases h; exact ⟨hs, hg⟩

/-- The end of a round of the outer loop. -/
def accept (s : St K) : St K :=
  { s with wEst := s.wNew, h := s.hNew, alpha := s.alpha + scale s.rho s.hNew }

theorem outer_succ {hTol : K} {fuel k : ℕ} {s : St K} :
    outer P minimize bnds hTol fuel (k + 1) s =
      match inner P minimize bnds fuel s with
      | none => none
      | some s' => if (accept s').h ≤ (hTol : WithTop K) then some (accept s')
        else outer P minimize bnds hTol fuel k { accept s' with warned := k = 0 } := by
  rw [outer]
  cases inner P minimize bnds fuel s <;> rfl

theorem outer_induct (I : St K → Prop) {hTol : K}
    (hI : ∀ s, I s → Go s → I (round P minimize bnds s))
    (hA : ∀ s, I s → ¬ Go s → I (accept s)) (hW : ∀ s b, I s → I { s with warned := b }) {fuel k : ℕ}
    {s s' : St K} (h : outer P minimize bnds hTol fuel k s = some s') (hs : I s) : I s' := by
  induction k generalizing s with
  | zero => rw [outer] at h; cases h; exact hs
  | succ k ih =>
    rw [outer_succ] at h
    cases hin : inner P minimize bnds fuel s with
    | none => rw [hin] at h; cases h
    | some s1 =>
      rw [hin] at h
      simp only at h
      obtain ⟨h1, h2⟩ := inner_induct I hI hin hs
      have h3 := hA s1 h1 h2
      split at h
      · cases h; exact h3
      · exact ih h (hW _ _ h3)

/-- Every weight vector of the loop is within the bounds. -/
theorem learnLoop_inBox (hm : RespectsBounds minimize) {n maxIter fuel : ℕ} {hTol : K} {s : St K}
    (h : learnLoop P minimize bnds n maxIter hTol fuel = some s)
    (h0 : InBox bnds (List.replicate n 0)) : InBox bnds s.wEst := by
  refine (outer_induct (fun s => InBox bnds s.wEst ∧ InBox bnds s.wNew) ?_ ?_ ?_ h ⟨h0, h0⟩).1
  · intro s hs _
    exact ⟨hs.1, hm _ _ _ _ _ hs.1⟩
  · intro s hs _
    exact ⟨hs.2, hs.2⟩
  · intro s _ hs
    exact hs

/-- The final weights are zero or were returned by the optimiser. -/
theorem learnLoop_returned {n maxIter fuel : ℕ} {hTol : K} {s : St K}
    (h : learnLoop P minimize bnds n maxIter hTol fuel = some s) :
    s.wEst = List.replicate n 0 ∨ Returned P minimize bnds s.wEst := by
  have : ∀ s : St K, (s.wEst = List.replicate n 0 ∨ Returned P minimize bnds s.wEst) ∧
      (s.wNew = List.replicate n 0 ∨ Returned P minimize bnds s.wNew) →
      (s.wEst = List.replicate n 0 ∨ Returned P minimize bnds s.wEst) := fun s h => h.1
  refine this s (outer_induct (fun s => (s.wEst = List.replicate n 0 ∨
    Returned P minimize bnds s.wEst) ∧ (s.wNew = List.replicate n 0 ∨
      Returned P minimize bnds s.wNew)) ?_ ?_ ?_ h ⟨Or.inl rfl, Or.inl rfl⟩)
  · intro s hs _
    exact ⟨hs.1, Or.inr ⟨_, _, _, _, rfl⟩⟩
  · intro s hs _
    exact ⟨hs.2, hs.2⟩
  · intro s _ hs
    exact hs

/-- Without iterations nothing is learned and the optimiser is not called. -/
theorem learnLoop_zero {n fuel : ℕ} {hTol : K} :
    learnLoop P minimize bnds n 0 hTol fuel = some (initSt n) := rfl

section
variable [IsStrictOrderedRing K]

theorem one_lt_limit : (1 : K) < 10 ^ 20 := one_lt_pow₀ (by norm_num) (by norm_num)

/-- The score of the current weights is the current score, except before the first call. -/
def Scored (P : Problem K) (s : St K) : Prop :=
  s.hNew = P.score s.wNew ∨ (s.hNew = ⊤ ∧ s.rho = 1)

theorem scored_inner {fuel : ℕ} {s s' : St K} (h : inner P minimize bnds fuel s = some s')
    (hs : Scored P s) : s'.hNew = P.score s'.wNew ∧ s'.warned = s.warned := by
  obtain ⟨⟨h1, h2⟩, h3⟩ := inner_induct (P := P) (fun t => Scored P t ∧ t.warned = s.warned)
    (fun t ht _ => ⟨Or.inl rfl, ht.2⟩) h ⟨hs, rfl⟩
  refine ⟨?_, h2⟩
  rcases h1 with h1 | ⟨h1, h4⟩
  · exact h1
  · exact absurd ⟨by rw [h4]; exact one_lt_limit, Or.inr h1⟩ h3

theorem outer_score {fuel k : ℕ} {hTol : K} {s s' : St K}
    (h : outer P minimize bnds hTol fuel (k + 1) s = some s') (hs : Scored P s)
    (hw : s.warned = false) :
    s'.h = P.score s'.wEst ∧ (s'.warned = false ↔ P.score s'.wEst ≤ (hTol : WithTop K)) := by
  induction k generalizing s with
  | zero =>
    rw [outer_succ] at h
    cases hin : inner P minimize bnds fuel s with
    | none => rw [hin] at h; cases h
    | some s1 =>
      obtain ⟨h1, h2⟩ := scored_inner hin hs
      rw [hin] at h
      simp only at h
      split at h
      · rename_i hle
        cases h
        refine ⟨h1, ?_⟩
        have : P.score s1.wNew ≤ (hTol : WithTop K) := by rw [← h1]; exact hle
        simp only [accept, this, h2, hw]
      · rename_i hle
        rw [outer] at h
        cases h
        refine ⟨h1, ?_⟩
        have : ¬ P.score s1.wNew ≤ (hTol : WithTop K) := by rw [← h1]; exact hle
        simp [accept, this]
  | succ k ih =>
    rw [outer_succ] at h
    cases hin : inner P minimize bnds fuel s with
    | none => rw [hin] at h; cases h
    | some s1 =>
      obtain ⟨h1, h2⟩ := scored_inner hin hs
      rw [hin] at h
      simp only at h
      split at h
      · rename_i hle
        cases h
        refine ⟨h1, ?_⟩
        have : P.score s1.wNew ≤ (hTol : WithTop K) := by rw [← h1]; exact hle
        simp only [accept, this, h2, hw]
      · exact ih h (Or.inl h1) (by simp)

/-- What is known at the end of at least one iteration: there was no warning exactly if the score of the
weights is at most the tolerance. -/
theorem learnLoop_score {n maxIter fuel : ℕ} {hTol : K} {s : St K}
    (h : learnLoop P minimize bnds n maxIter hTol fuel = some s) (hmax : maxIter ≠ 0) :
    s.warned = false ↔ P.score s.wEst ≤ (hTol : WithTop K) := by
  obtain ⟨k, rfl⟩ : ∃ k, maxIter = k + 1 := ⟨maxIter - 1, by omega⟩
  exact (outer_score h (Or.inr ⟨rfl, rfl⟩) rfl).2

/-! ### Termination -/

theorem inner_terminates (hP : FiniteScores P) {fuel a : ℕ} {s : St K} (ha : a ≤ 20)
    (hr : s.rho = 10 ^ a) (hf : 21 - a ≤ fuel) :
    ∃ s' a', inner P minimize bnds fuel s = some s' ∧ s'.rho = 10 ^ a' ∧ a ≤ a' ∧ a' ≤ 20 ∧
      s'.calls ≤ s.calls + (a' - a) + 1 := by
  induction fuel generalizing s a with
  | zero => omega
  | succ fuel ih =>
    by_cases hg : Go s
    · rw [inner_go hg]
      have ha' : a < 20 := by
        have := hg.1
        rw [hr] at this
        exact (pow_lt_pow_iff_right₀ (by norm_num : (1 : K) < 10)).1 this
      by_cases hq : quarter s.h < (round P minimize bnds s).hNew
      · obtain ⟨s', a', h1, h2, h3, h4, h5⟩ := ih (a := a + 1) (s := round P minimize bnds s)
          (by omega) (by
            have : (round P minimize bnds s).rho = s.rho * 10 := if_pos hq
            rw [this, hr, pow_succ]) (by omega)
        refine ⟨s', a', h1, h2, by omega, h4, ?_⟩
        have : (round P minimize bnds s).calls = s.calls + 1 := rfl
        omega
      · have hng : ¬ Go (round P minimize bnds s) := by
          rintro ⟨-, h | h⟩
          · exact hq h
          · exact hP _ h
        rw [inner_stop hng]
        refine ⟨_, a, rfl, ?_, le_refl _, ha, ?_⟩
        · have : (round P minimize bnds s).rho = s.rho := if_neg hq
          rw [this, hr]
        · have : (round P minimize bnds s).calls = s.calls + 1 := rfl
          omega
    · rw [inner_stop hg]
      exact ⟨s, a, rfl, hr, le_refl _, ha, by omega⟩

theorem outer_terminates (hP : FiniteScores P) {fuel a k : ℕ} {hTol : K} {s : St K} (ha : a ≤ 20)
    (hr : s.rho = 10 ^ a) (hf : 21 ≤ fuel) :
    ∃ s' a', outer P minimize bnds hTol fuel k s = some s' ∧ s'.rho = 10 ^ a' ∧ a ≤ a' ∧ a' ≤ 20 ∧
      s'.calls ≤ s.calls + (a' - a) + k := by
  induction k generalizing s a with
  | zero => exact ⟨s, a, rfl, hr, le_refl _, ha, by omega⟩
  | succ k ih =>
    obtain ⟨s1, a1, h1, h2, h3, h4, h5⟩ := inner_terminates (minimize := minimize) (bnds := bnds) hP ha hr
      (show 21 - a ≤ fuel by omega)
    rw [outer_succ, h1]
    simp only
    split
    · refine ⟨_, a1, rfl, h2, h3, h4, ?_⟩
      have : (accept s1).calls = s1.calls := rfl
      omega
    · obtain ⟨s2, a2, g1, g2, g3, g4, g5⟩ := ih (a := a1)
        (s := { accept s1 with warned := k = 0 }) h4 h2
      refine ⟨s2, a2, g1, g2, by omega, g4, ?_⟩
      have : (accept s1).calls = s1.calls := rfl
      simp only at g5
      omega

/-- **C42**: with finite scores the loop ends, after at most `max_iter + 20` calls of the optimiser. -/
theorem learnLoop_terminates (hP : FiniteScores P) (n maxIter : ℕ) (hTol : K) {fuel : ℕ}
    (hf : 21 ≤ fuel) :
    ∃ s, learnLoop P minimize bnds n maxIter hTol fuel = some s ∧ s.calls ≤ maxIter + 20 := by
  obtain ⟨s, a, h1, -, -, h4, h5⟩ := outer_terminates (minimize := minimize) (bnds := bnds)
    (s := initSt n) (hTol := hTol) (k := maxIter) hP (Nat.zero_le 20) (by simp [initSt]) hf
  refine ⟨s, h1, ?_⟩
  have : (initSt n : St K).calls = 0 := rfl
  omega

/-- The loop need not end if the score overflows: if it is always infinite, the first `while` loop runs
for ever. -/
theorem learnLoop_diverges (hP : ∀ w, P.score w = ⊤) (n : ℕ) {maxIter : ℕ} (hmax : maxIter ≠ 0)
    (hTol : K) (fuel : ℕ) : learnLoop P minimize bnds n maxIter hTol fuel = none := by
  obtain ⟨k, rfl⟩ : ∃ k, maxIter = k + 1 := ⟨maxIter - 1, by omega⟩
  have key : ∀ fuel (s : St K), s.rho = 1 → s.h = ⊤ → s.hNew = ⊤ →
      inner P minimize bnds fuel s = none := by
    intro fuel
    induction fuel with
    | zero =>
      intro s h1 h2 h3
      exact inner_zero ⟨by rw [h1]; exact one_lt_limit, Or.inr h3⟩
    | succ fuel ih =>
      intro s h1 h2 h3
      rw [inner_go ⟨by rw [h1]; exact one_lt_limit, Or.inr h3⟩]
      apply ih
      · have : ¬ quarter s.h < P.score
            (minimize s.calls (P.func s.rho s.alpha) (P.grad s.rho s.alpha) s.wEst bnds) := by
          rw [h2]
          exact not_lt_of_ge le_top
        change (if _ then _ else _) = _
        rw [if_neg this, h1]
      · exact h2
      · exact hP _
  rw [learnLoop, outer_succ, key fuel _ rfl rfl rfl]

end

/-- The result does not depend on the number of steps given to the model. -/
theorem inner_fuel {fuel fuel' : ℕ} {s s' : St K} (h : inner P minimize bnds fuel s = some s')
    (hf : fuel ≤ fuel') : inner P minimize bnds fuel' s = some s' := by
  induction fuel generalizing s fuel' with
  | zero =>
    by_cases hg : Go s
    · rw [inner_zero hg] at h; cases h
    · rw [inner_stop hg] at h ⊢; exact h
  | succ fuel ih =>
    by_cases hg : Go s
    · obtain ⟨f, rfl⟩ : ∃ f, fuel' = f + 1 := ⟨fuel' - 1, by omega⟩
      rw [inner_go hg] at h ⊢
      exact ih h (by omega)
    · rw [inner_stop hg] at h ⊢; exact h

theorem learnLoop_fuel {fuel fuel' n maxIter : ℕ} {hTol : K} {s : St K}
    (h : learnLoop P minimize bnds n maxIter hTol fuel = some s) (hf : fuel ≤ fuel') :
    learnLoop P minimize bnds n maxIter hTol fuel' = some s := by
  unfold learnLoop at *
  generalize (initSt n : St K) = s0 at *
  induction maxIter generalizing s0 with
  | zero => exact h
  | succ k ih =>
    rw [outer_succ] at h ⊢
    cases hin : inner P minimize bnds fuel s0 with
    | none => rw [hin] at h; cases h
    | some s1 =>
      rw [inner_fuel hin hf]
      rw [hin] at h
      simp only at h ⊢
      split at h
      · rename_i hle
        rw [if_pos hle]; exact h
      · rename_i hle
        rw [if_neg hle]; exact ih _ h

end

end Verif.Notears
