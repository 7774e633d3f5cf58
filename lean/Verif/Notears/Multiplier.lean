import Verif.Notears.Optimal
import Mathlib.Data.List.GetD

/-!
# First-order conditions at the end of the learning loop (C87)
-/

namespace Verif.Notears

/-- Specification: the first-order condition for a minimum within bounds. Where a coordinate can be decreased, the derivative is not
positive; where it can be increased, the derivative is not negative. -/
def Stationary (bnds : List (Bound ℝ)) (w g : List ℝ) : Prop :=
  ∀ (k : ℕ) (b : Bound ℝ), bnds[k]? = some b →
    ((∀ l, b.1 = some l → l < w.getD k 0) → g.getD k 0 ≤ 0) ∧ ((∀ u, b.2 = some u → w.getD k 0 < u) → 0 ≤ g.getD k 0)

/-- Specification: every call of the optimiser (with a positive penalty and a nonnegative multiplier, started within the bounds) returns a
point that satisfies the first-order condition. -/
def FindsStationary (P : Problem ℝ) (minimize : Minimizer ℝ) (bnds : List (Bound ℝ)) : Prop :=
  ∀ (k : ℕ) (rho alpha : ℝ) (start : List ℝ), 0 < rho → 0 ≤ alpha → InBox bnds start →
    Stationary bnds (minimize k (P.func rho alpha) (P.grad rho alpha) start bnds)
      (P.grad rho alpha (minimize k (P.func rho alpha) (P.grad rho alpha) start bnds))

/-- The gradient of the objective with penalty is that without penalty for another multiplier. -/
structure MultiplierRule (P : Problem ℝ) (h : List ℝ → ℝ) : Prop where
  grad : ∀ (rho alpha : ℝ) (w : List ℝ), P.grad rho alpha w = P.grad 0 ((alpha + rho * h w : ℝ) : WithTop ℝ) w
  score : ∀ w, P.score w = (h w : ℝ)
  nonneg : ∀ w, 0 ≤ h w

section
variable {P : Problem ℝ} {minimize : Minimizer ℝ} {bnds : List (Bound ℝ)} {h : List ℝ → ℝ}

/-- After a call. -/
structure Called (P : Problem ℝ) (bnds : List (Bound ℝ)) (h : List ℝ → ℝ) (t : St ℝ) (a : ℝ) : Prop where
  rho : 1 ≤ t.rho
  alpha : t.alpha = (a : ℝ)
  est : InBox bnds t.wEst
  box : InBox bnds t.wNew
  new : t.hNew = (h t.wNew : ℝ)
  stat : ∃ r : ℝ, 0 < r ∧ Stationary bnds t.wNew (P.grad r a t.wNew) ∧ (¬ quarter t.h < t.hNew → r = t.rho)

theorem called_round (hP : MultiplierRule P h) (hm : RespectsBounds minimize) (hst : FindsStationary P minimize bnds) {t : St ℝ} {a : ℝ}
    (ha : 0 ≤ a) (h1 : 1 ≤ t.rho) (h2 : t.alpha = (a : ℝ)) (h3 : InBox bnds t.wEst) : Called P bnds h (round P minimize bnds t) a := by
  have hw : (round P minimize bnds t).wNew = minimize t.calls (P.func t.rho a) (P.grad t.rho a) t.wEst bnds := by
    rw [← h2]; rfl
  refine ⟨?_, h2, h3, hm _ _ _ _ _ h3, hP.score _, t.rho, by linarith, ?_, ?_⟩
  · unfold round
    simp only
    split <;> linarith
  · rw [hw]
    exact hst t.calls t.rho a t.wEst (by linarith) ha h3
  · intro hq
    exact (if_neg hq).symm

/-- After accepting: the multiplier for which the point is stationary. -/
structure Settled (P : Problem ℝ) (bnds : List (Bound ℝ)) (h : List ℝ → ℝ) (t : St ℝ) : Prop where
  rho : 1 ≤ t.rho
  est : InBox bnds t.wEst
  same : t.wNew = t.wEst ∧ t.h = t.hNew ∧ t.hNew = (h t.wNew : ℝ)
  mult : ∃ a m : ℝ, 0 ≤ a ∧ 0 ≤ m ∧ t.alpha = (a : ℝ) ∧ Stationary bnds t.wEst (P.grad 0 m t.wEst) ∧ (t.rho < 10 ^ 20 → m = a)

theorem settled_of_called (hP : MultiplierRule P h) {t : St ℝ} {a : ℝ} (ha : 0 ≤ a) (hc : Called P bnds h t a) (hg : ¬ Go t) :
    Settled P bnds h (accept t) := by
  obtain ⟨r, hr, hs, hq⟩ := hc.stat
  have hn := hP.nonneg t.wNew
  have hrho := hc.rho
  refine ⟨hc.rho, hc.box, ⟨rfl, rfl, hc.new⟩, a + t.rho * h t.wNew, a + r * h t.wNew, ?_, ?_, ?_, ?_, ?_⟩
  · have := mul_nonneg (by linarith : 0 ≤ t.rho) hn; linarith
  · have := mul_nonneg hr.le hn; linarith
  · change t.alpha + scale t.rho t.hNew = _
    rw [hc.alpha, hc.new]
    rfl
  · change Stationary bnds t.wNew _
    rw [hP.grad] at hs
    exact hs
  · intro hlt
    rw [hq fun hlt' => hg ⟨hlt, Or.inl hlt'⟩]

theorem settled_step (hP : MultiplierRule P h) (hm : RespectsBounds minimize) (hst : FindsStationary P minimize bnds) {fuel : ℕ}
    {s t : St ℝ} (hs : Settled P bnds h s) (hin : inner P minimize bnds fuel s = some t) : Settled P bnds h (accept t) := by
  obtain ⟨a, m, ha, hm0, hal, hstat, hmul⟩ := hs.mult
  obtain ⟨hI, hg⟩ := inner_induct (fun t => t = s ∨ Called P bnds h t a) (fun u hu _ => by
    right
    rcases hu with rfl | hu
    · exact called_round hP hm hst ha hs.rho hal hs.est
    · exact called_round hP hm hst ha hu.rho hu.alpha hu.est) hin (Or.inl rfl)
  rcases hI with rfl | hI
  · obtain ⟨e1, e2, e3⟩ := hs.same
    have hn := hP.nonneg t.wNew
    have hrho := hs.rho
    refine ⟨hs.rho, ?_, ⟨rfl, rfl, e3⟩, a + t.rho * h t.wNew, m, ?_, hm0, ?_, ?_, ?_⟩
    · change InBox bnds t.wNew
      rw [e1]; exact hs.est
    · have := mul_nonneg (by linarith : 0 ≤ t.rho) hn; linarith
    · change t.alpha + scale t.rho t.hNew = _
      rw [hal, e3]
      rfl
    · change Stationary bnds t.wNew (P.grad 0 m t.wNew)
      rw [e1]; exact hstat
    · intro hlt
      have hz : h t.wNew = 0 := by
        have : ¬ quarter t.h < t.hNew := fun hq => hg ⟨hlt, Or.inl hq⟩
        rw [e2, e3] at this
        have : ¬ h t.wNew / 4 < h t.wNew := fun hq => this (WithTop.coe_lt_coe.2 hq)
        linarith
      rw [hz, mul_zero, add_zero]
      exact hmul hlt
  · exact settled_of_called hP ha hI hg

/-- At the end the point satisfies the first-order condition for the objective without penalty and some nonnegative multiplier, which is
the one the loop has arrived at unless the penalty is at its limit. -/
theorem learnLoop_stationary (hP : MultiplierRule P h) (hm : RespectsBounds minimize) (hst : FindsStationary P minimize bnds)
    {n maxIter fuel : ℕ} {hTol : ℝ} {s : St ℝ} (hl : learnLoop P minimize bnds n maxIter hTol fuel = some s) (hmax : maxIter ≠ 0)
    (hb : InBox bnds (List.replicate n 0)) :
    ∃ m : ℝ, 0 ≤ m ∧ Stationary bnds s.wEst (P.grad 0 m s.wEst) ∧ (s.rho < 10 ^ 20 → s.alpha = (m : ℝ)) := by
  obtain ⟨k, rfl⟩ : ∃ k, maxIter = k + 1 := ⟨maxIter - 1, by omega⟩
  unfold learnLoop at hl
  have key : ∀ (k : ℕ) (s s' : St ℝ), outer P minimize bnds hTol fuel k s = some s' → Settled P bnds h s → Settled P bnds h s' := by
    intro k
    induction k with
    | zero => intro s s' hl hs; rw [outer] at hl; cases hl; exact hs
    | succ k ih =>
      intro s s' hl hs
      rw [outer_succ] at hl
      cases hin : inner P minimize bnds fuel s with
      | none => rw [hin] at hl; cases hl
      | some t =>
        rw [hin] at hl
        simp only at hl
        have ht := settled_step hP hm hst hs hin
        split at hl
        · cases hl; exact ht
        · exact ih _ _ hl ⟨ht.rho, ht.est, ht.same, ht.mult⟩
  have hfin : Settled P bnds h s := by
    rw [outer_succ] at hl
    cases hin : inner P minimize bnds fuel (initSt n) with
    | none => rw [hin] at hl; cases hl
    | some t =>
      rw [hin] at hl
      simp only at hl
      have ht : Settled P bnds h (accept t) := by
        obtain ⟨hI, hg⟩ := inner_induct (fun t => t = initSt n ∨ Called P bnds h t 0) (fun u hu _ => by
          right
          rcases hu with rfl | hu
          · exact called_round hP hm hst (le_refl _) (le_refl _) rfl hb
          · exact called_round hP hm hst (le_refl _) hu.rho hu.alpha hu.est) hin (Or.inl rfl)
        rcases hI with rfl | hI
        · exact absurd ⟨one_lt_limit, Or.inr rfl⟩ hg
        · exact settled_of_called hP (le_refl _) hI hg
      split at hl
      · cases hl; exact ht
      · exact key _ _ _ hl ⟨ht.rho, ht.est, ht.same, ht.mult⟩
  obtain ⟨a, m, -, hm0, hal, hstat, hmul⟩ := hfin.mult
  exact ⟨m, hm0, hstat, fun hlt => by rw [hmul hlt]; exact hal⟩

end

end Verif.Notears
