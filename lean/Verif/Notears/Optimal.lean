import Verif.Notears.Loop
import Mathlib.Data.Real.Basic

/-!
# The learning loop with a good optimiser (C86)

If every call of the optimiser returns a point that is not worse than `w₀`, where `w₀` has no cycle, then so is the final point, for
the objective without the penalty for cycles; and its acyclicity score gets small.
-/

namespace Verif.Notears

/-- Specification: whenever the optimiser is called for the objective of `P` (with a positive penalty and a nonnegative multiplier,
started within the bounds), the point returned is not worse than `w₀`. -/
def NotWorse (P : Problem ℝ) (minimize : Minimizer ℝ) (bnds : List (Bound ℝ)) (w₀ : List ℝ) : Prop :=
  ∀ (k : ℕ) (rho alpha : ℝ) (start : List ℝ), 0 < rho → 0 ≤ alpha → InBox bnds start →
    P.func rho alpha (minimize k (P.func rho alpha) (P.grad rho alpha) start bnds) ≤ P.func rho alpha w₀

/-- The objective is a function `F` plus a penalty for the score `h`. -/
structure Penalised (P : Problem ℝ) (F h : List ℝ → ℝ) : Prop where
  func : ∀ (rho alpha : ℝ) (w : List ℝ), P.func rho alpha w = ((F w + (1 / 2 * rho * h w ^ 2 + alpha * h w) : ℝ) : WithTop ℝ)
  score : ∀ w, P.score w = (h w : ℝ)
  nonneg : ∀ w, 0 ≤ h w

section
variable {P : Problem ℝ} {minimize : Minimizer ℝ} {bnds : List (Bound ℝ)} {F h : List ℝ → ℝ} {w₀ : List ℝ}

/-- Bounds on `F` and `h` at a point found with the penalty `rho` or a tenth of it. -/
def Found (F h : List ℝ → ℝ) (w₀ w : List ℝ) (rho : ℝ) : Prop :=
  ∃ r, 1 ≤ r ∧ rho ≤ 10 * r ∧ F w + 1 / 2 * r * h w ^ 2 ≤ F w₀

theorem found_call (hP : Penalised P F h) (h0 : h w₀ = 0) (hw : NotWorse P minimize bnds w₀) {k : ℕ} {rho alpha : ℝ} {start : List ℝ}
    (hr : 1 ≤ rho) (ha : 0 ≤ alpha) (hs : InBox bnds start) {rho' : ℝ} (hr' : rho' ≤ 10 * rho) :
    Found F h w₀ (minimize k (P.func rho alpha) (P.grad rho alpha) start bnds) rho' := by
  refine ⟨rho, hr, hr', ?_⟩
  have h1 := hw k rho alpha start (by linarith) ha hs
  generalize minimize k (P.func rho alpha) (P.grad rho alpha) start bnds = w at h1 ⊢
  rw [hP.func, hP.func, h0] at h1
  have h2 := WithTop.coe_le_coe.1 h1
  have h3 := mul_nonneg ha (hP.nonneg w)
  nlinarith

/-- The invariant: penalty and multiplier, and what is known of the point found last. -/
structure Inv (P : Problem ℝ) (bnds : List (Bound ℝ)) (F h : List ℝ → ℝ) (w₀ : List ℝ) (s : St ℝ) : Prop where
  rho : 1 ≤ s.rho
  alpha : ∃ a : ℝ, 0 ≤ a ∧ s.alpha = (a : ℝ)
  est : InBox bnds s.wEst
  new : InBox bnds s.wNew
  found : (s.hNew = (h s.wNew : ℝ) ∧ Found F h w₀ s.wNew s.rho) ∨ (s.hNew = ⊤ ∧ s.rho = 1)

theorem inv_round (hP : Penalised P F h) (h0 : h w₀ = 0) (hm : RespectsBounds minimize) (hw : NotWorse P minimize bnds w₀) {s : St ℝ}
    (hs : Inv P bnds F h w₀ s) : Inv P bnds F h w₀ (round P minimize bnds s) := by
  obtain ⟨a, ha, hal⟩ := hs.alpha
  have hr := hs.rho
  refine ⟨?_, ⟨a, ha, hal⟩, hs.est, hm _ _ _ _ _ hs.est, Or.inl ⟨hP.score _, ?_⟩⟩
  · unfold round
    simp only
    split <;> linarith
  · have : (round P minimize bnds s).wNew = minimize s.calls (P.func s.rho a) (P.grad s.rho a) s.wEst bnds := by
      rw [← hal]; rfl
    rw [this]
    refine found_call hP h0 hw hr ha hs.est ?_
    unfold round
    simp only
    split <;> linarith

theorem inv_found {s : St ℝ} (hs : Inv P bnds F h w₀ s) (hg : ¬ Go s) : s.hNew = (h s.wNew : ℝ) ∧ Found F h w₀ s.wNew s.rho := by
  rcases hs.found with hf | ⟨h1, h2⟩
  · exact hf
  · exact absurd ⟨by rw [h2]; exact one_lt_limit, Or.inr h1⟩ hg

theorem inv_accept (hP : Penalised P F h) {s : St ℝ} (hs : Inv P bnds F h w₀ s) (hg : ¬ Go s) : Inv P bnds F h w₀ (accept s) := by
  obtain ⟨a, ha, hal⟩ := hs.alpha
  obtain ⟨f1, f2⟩ := inv_found hs hg
  refine ⟨hs.rho, ⟨a + s.rho * h s.wNew, ?_, ?_⟩, hs.new, hs.new, Or.inl ⟨f1, f2⟩⟩
  · have := mul_nonneg (by linarith [hs.rho] : 0 ≤ s.rho) (hP.nonneg s.wNew)
    linarith
  · change s.alpha + scale s.rho s.hNew = _
    rw [hal, f1]
    rfl

theorem inv_init {n : ℕ} (hb : InBox bnds (List.replicate n 0)) : Inv P bnds F h w₀ (initSt n) :=
  ⟨le_refl _, ⟨0, le_refl _, rfl⟩, hb, hb, Or.inr ⟨rfl, rfl⟩⟩

/-- The final point is not worse than `w₀`. -/
theorem learnLoop_best (hP : Penalised P F h) (hm : RespectsBounds minimize) {n maxIter fuel : ℕ} {hTol : ℝ} {s : St ℝ}
    (hl : learnLoop P minimize bnds n maxIter hTol fuel = some s) (hmax : maxIter ≠ 0) (hb : InBox bnds (List.replicate n 0))
    (h0 : h w₀ = 0) (hw : NotWorse P minimize bnds w₀) : F s.wEst ≤ F w₀ := by
  obtain ⟨k, rfl⟩ : ∃ k, maxIter = k + 1 := ⟨maxIter - 1, by omega⟩
  unfold learnLoop at hl
  rw [outer_succ] at hl
  cases hin : inner P minimize bnds fuel (initSt n) with
  | none => rw [hin] at hl; cases hl
  | some s1 =>
    rw [hin] at hl
    simp only at hl
    obtain ⟨i1, i2⟩ := inner_induct (Inv P bnds F h w₀) (fun t ht _ => inv_round hP h0 hm hw ht) hin (inv_init hb)
    let J : St ℝ → Prop := fun t => Inv P bnds F h w₀ t ∧ ∃ r, Found F h w₀ t.wEst r
    have hJ : J (accept s1) := ⟨inv_accept hP i1 i2, _, (inv_found i1 i2).2⟩
    have : J s := by
      split at hl
      · cases hl; exact hJ
      · refine outer_induct J ?_ ?_ ?_ hl ?_
        · exact fun t ht _ => ⟨inv_round hP h0 hm hw ht.1, ht.2⟩
        · exact fun t ht hg => ⟨inv_accept hP ht.1 hg, _, (inv_found ht.1 hg).2⟩
        · exact fun t b ht => ⟨⟨ht.1.rho, ht.1.alpha, ht.1.est, ht.1.new, ht.1.found⟩, ht.2⟩
        · exact ⟨⟨hJ.1.rho, hJ.1.alpha, hJ.1.est, hJ.1.new, hJ.1.found⟩, hJ.2⟩
    obtain ⟨-, r, r', h1, -, h3⟩ := this
    have := mul_nonneg (by linarith : (0 : ℝ) ≤ 1 / 2 * r') (sq_nonneg (h s.wEst))
    linarith

/-- A score found with penalty `r` is small, if `F` does not vary much. -/
theorem small_of_found {w : List ℝ} {c r b : ℝ} (hc : c ≤ F w) (h3 : F w + 1 / 2 * r * h w ^ 2 ≤ F w₀) (hr : 0 < r) (hb : 0 ≤ b)
    (hv : 2 * (F w₀ - c) ≤ r * b ^ 2) : h w ≤ b := by
  have h4 : r * h w ^ 2 ≤ r * b ^ 2 := by linarith
  have h5 : h w ^ 2 ≤ b ^ 2 := le_of_mul_le_mul_left h4 hr
  exact abs_le_of_sq_le_sq' h5 hb |>.2

/-- The score gets at most the tolerance, if the number of iterations and the limit of the penalty suffice for the variation of
`F`. -/
theorem outer_converges (hP : Penalised P F h) (hm : RespectsBounds minimize) (h0 : h w₀ = 0) (hw : NotWorse P minimize bnds w₀)
    {c hTol : ℝ} (hc : ∀ w, InBox bnds w → c ≤ F w) (ht : 0 ≤ hTol) (hlim : 2 * (F w₀ - c) ≤ 10 ^ 19 * hTol ^ 2) {fuel k : ℕ}
    {s s' : St ℝ} (hl : outer P minimize bnds hTol fuel (k + 1) s = some s') (hs : Inv P bnds F h w₀ s)
    (hh : (s.h = ⊤ ∧ 2 * (F w₀ - c) ≤ (hTol * 4 ^ k) ^ 2) ∨ ∃ x : ℝ, s.h = (x : ℝ) ∧ x ≤ hTol * 4 ^ (k + 1)) :
    h s'.wEst ≤ hTol := by
  have step : ∀ (k : ℕ) (s s1 : St ℝ), inner P minimize bnds fuel s = some s1 → Inv P bnds F h w₀ s →
      ((s.h = ⊤ ∧ 2 * (F w₀ - c) ≤ (hTol * 4 ^ k) ^ 2) ∨ ∃ x : ℝ, s.h = (x : ℝ) ∧ x ≤ hTol * 4 ^ (k + 1)) →
      Inv P bnds F h w₀ (accept s1) ∧ (accept s1).h = (h s1.wNew : ℝ) ∧ h s1.wNew ≤ hTol * 4 ^ k := by
    intro k s s1 hin hs hh
    obtain ⟨⟨i1, i3⟩, i2⟩ := inner_induct (fun t => Inv P bnds F h w₀ t ∧ t.h = s.h)
      (fun t ht _ => ⟨inv_round hP h0 hm hw ht.1, ht.2⟩) hin ⟨hs, rfl⟩
    obtain ⟨f1, r, f2, f3, f4⟩ := inv_found i1 i2
    have hcw := hc _ i1.new
    have h4 : (1 : ℝ) ≤ 4 ^ k := one_le_pow₀ (by norm_num)
    have hb : hTol ≤ hTol * 4 ^ k := by nlinarith
    refine ⟨inv_accept hP i1 i2, f1, ?_⟩
    rcases hh with ⟨-, hv⟩ | ⟨x, hx, hxb⟩
    · refine small_of_found hcw f4 (by linarith) (by linarith) ?_
      have := sq_nonneg (hTol * 4 ^ k)
      nlinarith
    · by_cases hrho : s1.rho < 10 ^ 20
      · have : ¬ (quarter s1.h < s1.hNew) := fun hq => i2 ⟨hrho, Or.inl hq⟩
        rw [i3, hx, f1] at this
        have h5 : h s1.wNew ≤ x / 4 := by
          by_contra hcon
          exact this (WithTop.coe_lt_coe.2 (not_le.1 hcon))
        rw [pow_succ] at hxb
        linarith
      · have hr19 : (10 : ℝ) ^ 19 ≤ r := by
          have : (10 : ℝ) ^ 20 = 10 * 10 ^ 19 := by norm_num
          linarith [not_lt.1 hrho]
        have : h s1.wNew ≤ hTol := by
          refine small_of_found hcw f4 (by linarith) ht (le_trans hlim ?_)
          exact mul_le_mul_of_nonneg_right hr19 (sq_nonneg _)
        linarith
  induction k generalizing s with
  | zero =>
    rw [outer_succ] at hl
    cases hin : inner P minimize bnds fuel s with
    | none => rw [hin] at hl; cases hl
    | some s1 =>
      rw [hin] at hl
      obtain ⟨j1, j2, j3⟩ := step 0 s s1 hin hs hh
      simp only at hl
      rw [if_pos] at hl
      · cases hl
        rw [pow_zero, mul_one] at j3
        exact j3
      · rw [j2]
        exact WithTop.coe_le_coe.2 (by simpa using j3)
  | succ k ih =>
    rw [outer_succ] at hl
    cases hin : inner P minimize bnds fuel s with
    | none => rw [hin] at hl; cases hl
    | some s1 =>
      rw [hin] at hl
      obtain ⟨j1, j2, j3⟩ := step (k + 1) s s1 hin hs hh
      simp only at hl
      split at hl
      · rename_i hle
        cases hl
        rw [j2] at hle
        exact WithTop.coe_le_coe.1 hle
      · exact ih hl ⟨j1.rho, j1.alpha, j1.est, j1.new, j1.found⟩ (Or.inr ⟨_, j2, j3⟩)

/-- At the end the score is at most the tolerance and there was no warning. -/
theorem learnLoop_converges (hP : Penalised P F h) (hm : RespectsBounds minimize) {n maxIter fuel : ℕ} {c hTol : ℝ} {s : St ℝ}
    (hl : learnLoop P minimize bnds n maxIter hTol fuel = some s) (hmax : maxIter ≠ 0) (hb : InBox bnds (List.replicate n 0))
    (h0 : h w₀ = 0) (hw : NotWorse P minimize bnds w₀) (hc : ∀ w, InBox bnds w → c ≤ F w) (ht : 0 ≤ hTol)
    (hlim : 2 * (F w₀ - c) ≤ 10 ^ 19 * hTol ^ 2) (hit : 2 * (F w₀ - c) ≤ (hTol * 4 ^ (maxIter - 1)) ^ 2) :
    h s.wEst ≤ hTol ∧ s.warned = false := by
  obtain ⟨k, rfl⟩ : ∃ k, maxIter = k + 1 := ⟨maxIter - 1, by omega⟩
  have h1 : h s.wEst ≤ hTol := outer_converges hP hm h0 hw hc ht hlim hl (inv_init hb) (Or.inl ⟨rfl, hit⟩)
  refine ⟨h1, (learnLoop_score hl hmax).2 ?_⟩
  rw [hP.score]
  exact WithTop.coe_le_coe.2 h1

end

end Verif.Notears
