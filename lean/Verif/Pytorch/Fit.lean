import Verif.Notears.Loop

/-!
# Model of the fitting loop of the PyTorch version (C42)

As for the numpy version, `⊤` is `np.inf`, `NaN` does not occur (simplification), and scipy's optimiser is an arbitrary function.
The objective, gradient and score of the network are a `Problem`.
-/

namespace Verif.Pytorch

open Verif.Notears (Problem Minimizer Bound quarter scale InBox RespectsBounds FiniteScores)

/-- State of the fitting: parameters of the network and local variables. `calls` counts the calls of the optimiser, `warned` tells
whether the warning was given; both only observe. -/
structure FitSt (K : Type) where
  params : List K
  rho : K
  alpha : WithTop K
  h : WithTop K
  hNew : WithTop K
  calls : ℕ
  warned : Bool

section
variable {K : Type} [Field K] [LinearOrder K]

/-- The `while` loop of a step, at most `fuel` times; `start` are the parameters at the beginning of the step, from which every call
of the optimiser starts: `structure/pytorch/core.py:394-411`. -/
def stepLoop (P : Problem K) (minimize : Minimizer K) (bnds : List (Bound K)) (rhoMax : K) (start : List K) :
    ℕ → FitSt K → Option (FitSt K)
  | 0, s => if s.rho < rhoMax ∧ (quarter s.h < s.hNew ∨ s.hNew = ⊤) then none else some s
  | fuel + 1, s =>
    if s.rho < rhoMax ∧ (quarter s.h < s.hNew ∨ s.hNew = ⊤) then
      let w := minimize s.calls (P.func s.rho s.alpha) (P.grad s.rho s.alpha) start bnds
      let hNew := P.score w
      let rho := if quarter s.h < hNew then s.rho * 10 else s.rho
      stepLoop P minimize bnds rhoMax start fuel { s with params := w, hNew := hNew, rho := rho, calls := s.calls + 1 }
    else some s

/-- `_dual_ascent_step`: `structure/pytorch/core.py:262-413`. -/
def dualStep (P : Problem K) (minimize : Minimizer K) (bnds : List (Bound K)) (rhoMax : K) (fuel : ℕ) (s : FitSt K) :
    Option (FitSt K) :=
  (stepLoop P minimize bnds rhoMax s.params fuel { s with hNew := ⊤ }).map fun s =>
    { s with alpha := s.alpha + scale s.rho s.hNew, h := s.hNew }

/-- The loop of `fit` with `k` iterations left: `structure/pytorch/core.py:245-252`. -/
def fitLoop (P : Problem K) (minimize : Minimizer K) (bnds : List (Bound K)) (hTol rhoMax : K) (fuel : ℕ) :
    ℕ → FitSt K → Option (FitSt K)
  | 0, s => some s
  | k + 1, s =>
    match dualStep P minimize bnds rhoMax fuel s with
    | none => none
    | some s =>
      if s.h ≤ (hTol : WithTop K) ∨ rhoMax ≤ s.rho then some s
      else fitLoop P minimize bnds hTol rhoMax fuel k { s with warned := k = 0 ∧ (hTol : WithTop K) < s.h }

/-- The state before the first iteration: `structure/pytorch/core.py:242`. -/
def fitInit (w : List K) : FitSt K :=
  { params := w, rho := 1, alpha := 0, h := ⊤, hNew := ⊤, calls := 0, warned := false }

/-- `fit` with the initial parameters `w` and the default values of `h_tol` and `rho_max`: `structure/pytorch/core.py:227-252`. -/
def fit (P : Problem K) (minimize : Minimizer K) (bnds : List (Bound K)) (w : List K) (maxIter fuel : ℕ) : Option (FitSt K) :=
  fitLoop P minimize bnds (1 / 10 ^ 8) (10 ^ 16) fuel maxIter (fitInit w)

/-! ### Invariants -/

variable {P : Problem K} {minimize : Minimizer K} {bnds : List (Bound K)}

/-- The loop condition. -/
def FitGo (rhoMax : K) (s : FitSt K) : Prop := s.rho < rhoMax ∧ (quarter s.h < s.hNew ∨ s.hNew = ⊤)

/-- One call of the optimiser. -/
def fitRound (P : Problem K) (minimize : Minimizer K) (bnds : List (Bound K)) (start : List K) (s : FitSt K) : FitSt K :=
  let w := minimize s.calls (P.func s.rho s.alpha) (P.grad s.rho s.alpha) start bnds
  { s with
    params := w, hNew := P.score w
    rho := if quarter s.h < P.score w then s.rho * 10 else s.rho
    calls := s.calls + 1 }

theorem stepLoop_stop {rhoMax : K} {start : List K} {fuel : ℕ} {s : FitSt K} (h : ¬ FitGo rhoMax s) :
    stepLoop P minimize bnds rhoMax start fuel s = some s := by
  unfold FitGo at h
  cases fuel <;> rw [stepLoop, if_neg h]

theorem stepLoop_go {rhoMax : K} {start : List K} {fuel : ℕ} {s : FitSt K} (h : FitGo rhoMax s) :
    stepLoop P minimize bnds rhoMax start (fuel + 1) s = stepLoop P minimize bnds rhoMax start fuel (fitRound P minimize bnds start s) := by
  unfold FitGo at h
  rw [stepLoop, if_pos h]
  rfl

theorem stepLoop_zero {rhoMax : K} {start : List K} {s : FitSt K} (h : FitGo rhoMax s) :
    stepLoop P minimize bnds rhoMax start 0 s = none := by
  unfold FitGo at h
  rw [stepLoop, if_pos h]

theorem stepLoop_induct {rhoMax : K} {start : List K} (I : FitSt K → Prop)
    (hI : ∀ s, I s → FitGo rhoMax s → I (fitRound P minimize bnds start s)) {fuel : ℕ}
    {s s' : FitSt K} (h : stepLoop P minimize bnds rhoMax start fuel s = some s') (hs : I s) : I s' ∧ ¬ FitGo rhoMax s' := by
  induction fuel generalizing s with
  | zero =>
    by_cases hg : FitGo rhoMax s
    · rw [stepLoop_zero hg] at h; cases h
    · rw [stepLoop_stop hg] at h; cases h; exact ⟨hs, hg⟩
  | succ fuel ih =>
    by_cases hg : FitGo rhoMax s
    · rw [stepLoop_go hg] at h; exact ih h (hI s hs hg)
    · rw [stepLoop_stop hg] at h; cases h; exact ⟨hs, hg⟩

/-- One step: the parameters stay within the bounds; if the penalty is below its limit at the beginning, the optimiser is called and
the score recorded is that of the new parameters. -/
theorem dualStep_spec {rhoMax : K} {fuel : ℕ} {s s' : FitSt K} (h : dualStep P minimize bnds rhoMax fuel s = some s') :
    s'.warned = s.warned ∧ (RespectsBounds minimize → InBox bnds s.params → InBox bnds s'.params) ∧
      (s.rho < rhoMax → s'.h = P.score s'.params) := by
  unfold dualStep at h
  rw [Option.map_eq_some_iff] at h
  obtain ⟨s1, h1, rfl⟩ := h
  refine ⟨?_, ?_, ?_⟩
  · exact (stepLoop_induct (fun t => t.warned = s.warned) (fun t ht _ => ht) h1 rfl).1
  · intro hm hs
    exact (stepLoop_induct (fun t => InBox bnds t.params) (fun t _ _ => hm _ _ _ _ _ hs) h1 hs).1
  · intro hr
    obtain ⟨h2, h3⟩ := stepLoop_induct (P := P) (fun t => t.hNew = P.score t.params ∨ (t.hNew = ⊤ ∧ t.rho = s.rho))
      (fun t _ _ => Or.inl rfl) h1 (Or.inr ⟨rfl, rfl⟩)
    rcases h2 with h2 | ⟨h2, h4⟩
    · exact h2
    · exact absurd ⟨by rw [h4]; exact hr, Or.inr h2⟩ h3

/-- After the loop: bounds, score, warning. -/
theorem fitLoop_spec {hTol rhoMax : K} {fuel k : ℕ} {s s' : FitSt K}
    (h : fitLoop P minimize bnds hTol rhoMax fuel k s = some s') :
    (RespectsBounds minimize → InBox bnds s.params → InBox bnds s'.params) ∧
    (s.rho < rhoMax → 0 < k → s.warned = false → s'.h = P.score s'.params ∧
      (s'.warned = true ↔ (hTol : WithTop K) < s'.h ∧ s'.rho < rhoMax)) := by
  induction k generalizing s with
  | zero => rw [fitLoop] at h; cases h; exact ⟨fun _ h => h, fun _ h => absurd h (lt_irrefl _)⟩
  | succ k ih =>
    rw [fitLoop] at h
    cases hd : dualStep P minimize bnds rhoMax fuel s with
    | none => rw [hd] at h; cases h
    | some s1 =>
      rw [hd] at h
      simp only at h
      obtain ⟨d1, d2, d3⟩ := dualStep_spec hd
      split at h
      · rename_i hc
        cases h
        refine ⟨d2, fun hr _ hw => ⟨d3 hr, ?_⟩⟩
        rw [d1, hw]
        constructor
        · intro h'; cases h'
        · rintro ⟨h1, h2⟩
          rcases hc with hc | hc
          · exact absurd h1 (not_lt_of_ge hc)
          · exact absurd h2 (not_lt_of_ge hc)
      · rename_i hc
        rw [not_or, not_le, not_le] at hc
        obtain ⟨i1, i2⟩ := ih h
        refine ⟨fun hm hs => i1 hm (d2 hm hs), fun hr _ hw => ?_⟩
        cases k with
        | zero =>
          rw [fitLoop] at h
          cases h
          exact ⟨d3 hr, by simp [hc.1, hc.2]⟩
        | succ k => exact i2 hc.2 (by omega) (by simp)

theorem stepLoop_fuel {rhoMax : K} {start : List K} {fuel fuel' : ℕ} {s s' : FitSt K}
    (h : stepLoop P minimize bnds rhoMax start fuel s = some s') (hf : fuel ≤ fuel') :
    stepLoop P minimize bnds rhoMax start fuel' s = some s' := by
  induction fuel generalizing s fuel' with
  | zero =>
    by_cases hg : FitGo rhoMax s
    · rw [stepLoop_zero hg] at h; cases h
    · rw [stepLoop_stop hg] at h ⊢; exact h
  | succ fuel ih =>
    by_cases hg : FitGo rhoMax s
    · obtain ⟨f, rfl⟩ : ∃ f, fuel' = f + 1 := ⟨fuel' - 1, by omega⟩
      rw [stepLoop_go hg] at h ⊢
      exact ih h (by omega)
    · rw [stepLoop_stop hg] at h ⊢; exact h

/-! ### Termination -/

section
variable [IsStrictOrderedRing K]

theorem stepLoop_terminates (hP : FiniteScores P) {start : List K} {N fuel a : ℕ} {s : FitSt K} (ha : a ≤ N)
    (hr : s.rho = 10 ^ a) (hf : N + 1 - a ≤ fuel) :
    ∃ s' a', stepLoop P minimize bnds (10 ^ N) start fuel s = some s' ∧ s'.rho = 10 ^ a' ∧ a ≤ a' ∧ a' ≤ N ∧
      s'.calls ≤ s.calls + (a' - a) + 1 := by
  induction fuel generalizing s a with
  | zero => omega
  | succ fuel ih =>
    by_cases hg : FitGo (10 ^ N) s
    · rw [stepLoop_go hg]
      have ha' : a < N := by
        have := hg.1
        rw [hr] at this
        exact (pow_lt_pow_iff_right₀ (by norm_num : (1 : K) < 10)).1 this
      by_cases hq : quarter s.h < (fitRound P minimize bnds start s).hNew
      · obtain ⟨s', a', h1, h2, h3, h4, h5⟩ := ih (a := a + 1) (s := fitRound P minimize bnds start s)
          (by omega) (by
            have : (fitRound P minimize bnds start s).rho = s.rho * 10 := if_pos hq
            rw [this, hr, pow_succ]) (by omega)
        refine ⟨s', a', h1, h2, by omega, h4, ?_⟩
        have : (fitRound P minimize bnds start s).calls = s.calls + 1 := rfl
        omega
      · have hng : ¬ FitGo (10 ^ N) (fitRound P minimize bnds start s) := by
          rintro ⟨-, h | h⟩
          · exact hq h
          · exact hP _ h
        rw [stepLoop_stop hng]
        refine ⟨_, a, rfl, ?_, le_refl _, ha, ?_⟩
        · have : (fitRound P minimize bnds start s).rho = s.rho := if_neg hq
          rw [this, hr]
        · have : (fitRound P minimize bnds start s).calls = s.calls + 1 := rfl
          omega
    · rw [stepLoop_stop hg]
      exact ⟨s, a, rfl, hr, le_refl _, ha, by omega⟩

theorem fitLoop_terminates (hP : FiniteScores P) {N fuel a k : ℕ} {hTol : K} {s : FitSt K} (ha : a ≤ N)
    (hr : s.rho = 10 ^ a) (hf : N + 1 ≤ fuel) :
    ∃ s' a', fitLoop P minimize bnds hTol (10 ^ N) fuel k s = some s' ∧ s'.rho = 10 ^ a' ∧ a ≤ a' ∧ a' ≤ N ∧
      s'.calls ≤ s.calls + (a' - a) + k := by
  induction k generalizing s a with
  | zero => exact ⟨s, a, rfl, hr, le_refl _, ha, by omega⟩
  | succ k ih =>
    obtain ⟨s1, a1, h1, h2, h3, h4, h5⟩ := stepLoop_terminates (minimize := minimize) (bnds := bnds) (start := s.params) (N := N)
      (s := { s with hNew := ⊤ }) hP ha hr (show N + 1 - a ≤ fuel by omega)
    rw [fitLoop, dualStep, h1]
    simp only [Option.map_some]
    split
    · refine ⟨_, a1, rfl, h2, h3, h4, ?_⟩
      simp only at h5 ⊢
      omega
    · obtain ⟨s2, a2, g1, g2, g3, g4, g5⟩ := ih (a := a1)
        (s := { s1 with alpha := s1.alpha + scale s1.rho s1.hNew, h := s1.hNew, warned := k = 0 ∧ (hTol : WithTop K) < s1.hNew }) h4 h2
      refine ⟨s2, a2, g1, g2, by omega, g4, ?_⟩
      simp only at g5 h5
      omega

/-- **C42**: with finite scores the fitting ends, after at most `max_iter + 16` calls of the optimiser. -/
theorem fit_terminates (hP : FiniteScores P) (w : List K) (maxIter : ℕ) {fuel : ℕ} (hf : 17 ≤ fuel) :
    ∃ s, fit P minimize bnds w maxIter fuel = some s ∧ s.calls ≤ maxIter + 16 := by
  obtain ⟨s, a, h1, -, -, h4, h5⟩ := fitLoop_terminates (minimize := minimize) (bnds := bnds)
    (s := fitInit w) (hTol := 1 / 10 ^ 8) (k := maxIter) (N := 16) (fuel := fuel) hP (Nat.zero_le 16) (by simp [fitInit]) hf
  refine ⟨s, h1, ?_⟩
  have : (fitInit w : FitSt K).calls = 0 := rfl
  omega

/-- **C42**: what is known at the end. The parameters are within the bounds if the initial ones are; after at least one iteration
the score recorded is that of the parameters, and the warning is given exactly if it is above the tolerance and the penalty has not
reached its limit. Without iterations the parameters are the initial ones. -/
theorem fit_result {w : List K} {maxIter fuel : ℕ} {s : FitSt K} (h : fit P minimize bnds w maxIter fuel = some s) :
    (RespectsBounds minimize → InBox bnds w → InBox bnds s.params) ∧
    (0 < maxIter → s.h = P.score s.params ∧
      (s.warned = true ↔ ((1 / 10 ^ 8 : K) : WithTop K) < P.score s.params ∧ s.rho < 10 ^ 16)) ∧
    (maxIter = 0 → s.params = w) := by
  obtain ⟨h1, h2⟩ := fitLoop_spec h
  refine ⟨h1, ?_, ?_⟩
  · intro hm
    obtain ⟨h3, h4⟩ := h2 (one_lt_pow₀ (by norm_num) (by norm_num)) hm rfl
    exact ⟨h3, by rw [← h3]; exact h4⟩
  · rintro rfl
    unfold fit at h
    rw [fitLoop] at h
    cases h
    rfl

/-- The fitting need not end if the score overflows: if it is always infinite, the first `while` loop runs for ever. -/
theorem fit_diverges (hP : ∀ w, P.score w = ⊤) (w : List K) {maxIter : ℕ} (hmax : maxIter ≠ 0) (fuel : ℕ) :
    fit P minimize bnds w maxIter fuel = none := by
  obtain ⟨k, rfl⟩ : ∃ k, maxIter = k + 1 := ⟨maxIter - 1, by omega⟩
  have one_lt : (1 : K) < 10 ^ 16 := one_lt_pow₀ (by norm_num) (by norm_num)
  have key : ∀ start fuel (s : FitSt K), s.rho = 1 → s.h = ⊤ → s.hNew = ⊤ →
      stepLoop P minimize bnds (10 ^ 16) start fuel s = none := by
    intro start fuel
    induction fuel with
    | zero =>
      intro s h1 h2 h3
      exact stepLoop_zero ⟨by rw [h1]; exact one_lt, Or.inr h3⟩
    | succ fuel ih =>
      intro s h1 h2 h3
      rw [stepLoop_go ⟨by rw [h1]; exact one_lt, Or.inr h3⟩]
      apply ih
      · have : ¬ quarter s.h < P.score
            (minimize s.calls (P.func s.rho s.alpha) (P.grad s.rho s.alpha) start bnds) := by
          rw [h2]
          exact not_lt_of_ge le_top
        change (if _ then _ else _) = _
        rw [if_neg this, h1]
      · exact h2
      · exact hP _
  rw [fit, fitLoop, dualStep, key _ fuel _ rfl rfl rfl]
  rfl

end

end

/-- A problem whose score is 1 everywhere. -/
def stuck : Problem ℚ := ⟨fun _ _ _ => 0, fun _ _ w => w, fun _ => 1⟩

/-- An optimiser that stays where it is. -/
def stay : Minimizer ℚ := fun _ _ _ w _ => w

/-- The optimiser may make no progress; then the penalty reaches its limit and the fitting ends, with a score above the tolerance,
without the warning. -/
theorem fit_no_warning : FiniteScores stuck ∧ RespectsBounds stay ∧
    ∃ s, fit stuck stay [] [] 100 17 = some s ∧ s.warned = false ∧ s.h = 1 ∧ s.calls = 17 := by
  have hP : FiniteScores stuck := fun w h => absurd h (WithTop.coe_ne_top (a := (1 : ℚ)))
  refine ⟨hP, fun k f g w bnds h => h, ?_⟩
  obtain ⟨s, hs, -⟩ := fit_terminates (minimize := stay) (bnds := []) hP [] 100 (le_refl 17)
  have h : (fit stuck stay [] [] 100 17).map (fun s => decide (s.warned = false ∧ s.h = 1 ∧ s.calls = 17)) = some true := by
    decide +kernel
  rw [hs, Option.map_some, Option.some.injEq] at h
  exact ⟨s, hs, of_decide_eq_true h⟩

end Verif.Pytorch
