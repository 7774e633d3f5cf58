import Verif.Pytorch.Optimal
import Verif.Pytorch.Smooth
import Mathlib.Analysis.Calculus.Deriv.Abs

/-!
# First-order conditions for the PyTorch version (C87)
-/

namespace Verif.Pytorch

open Verif.Notears (Problem Minimizer Bound quarter scale InBox RespectsBounds Permitted Tabu)

/-- Specification: no free parameter can be changed so that `f` decreases to first order (where `f` has a one-sided derivative, that
derivative does not point down). -/
def NoDescent (bnds : List (Bound ℝ)) (f : List ℝ → WithTop ℝ) (w : List ℝ) : Prop :=
  ∀ k : ℕ, bnds[k]? = some (none, none) →
    (∀ D, HasDerivWithinAt (fun t => (f (w.set k t)).untopD 0) D (Set.Ici (w.getD k 0)) (w.getD k 0) → 0 ≤ D) ∧
    (∀ D, HasDerivWithinAt (fun t => (f (w.set k t)).untopD 0) D (Set.Iic (w.getD k 0)) (w.getD k 0) → D ≤ 0)

/-- Specification: every call of the optimiser (with a positive penalty and a nonnegative multiplier, started within the bounds) returns
such a point. -/
def EndsWithoutDescent (P : Problem ℝ) (minimize : Minimizer ℝ) (bnds : List (Bound ℝ)) : Prop :=
  ∀ (k : ℕ) (rho alpha : ℝ) (start : List ℝ), 0 < rho → 0 ≤ alpha → InBox bnds start →
    NoDescent bnds (P.func rho alpha) (minimize k (P.func rho alpha) (P.grad rho alpha) start bnds)

section
variable {P : Problem ℝ} {minimize : Minimizer ℝ} {bnds : List (Bound ℝ)} {h : List ℝ → ℝ}

theorem dualStep_descent (hsc : ∀ w, P.score w = (h w : ℝ)) (hn : ∀ w, 0 ≤ h w) (hm : RespectsBounds minimize)
    (hopt : EndsWithoutDescent P minimize bnds) {rhoMax : ℝ} {fuel : ℕ} {s s' : FitSt ℝ} (hs : Ready bnds rhoMax s)
    (hd : dualStep P minimize bnds rhoMax fuel s = some s') :
    1 ≤ s'.rho ∧ (∃ a : ℝ, 0 ≤ a ∧ s'.alpha = (a : ℝ)) ∧ InBox bnds s'.params ∧
      ∃ r a : ℝ, 0 < r ∧ 0 ≤ a ∧ NoDescent bnds (P.func r a) s'.params := by
  unfold dualStep at hd
  rw [Option.map_eq_some_iff] at hd
  obtain ⟨s1, h1, rfl⟩ := hd
  obtain ⟨a, ha, hal⟩ := hs.alpha
  let I : FitSt ℝ → Prop := fun t => 1 ≤ t.rho ∧ t.alpha = (a : ℝ) ∧ InBox bnds t.params ∧
    ((t.hNew = (h t.params : ℝ) ∧ ∃ r : ℝ, 0 < r ∧ NoDescent bnds (P.func r a) t.params) ∨ (t.hNew = ⊤ ∧ t.rho < rhoMax))
  obtain ⟨⟨i1, i2, i3, i5⟩, hg⟩ := stepLoop_induct I (fun t ht _ => by
    obtain ⟨t1, t2, t3, t5⟩ := ht
    refine ⟨?_, t2, hm _ _ _ _ _ hs.box, Or.inl ⟨hsc _, t.rho, by linarith, ?_⟩⟩
    · unfold fitRound
      simp only
      split <;> linarith
    · have : (fitRound P minimize bnds s.params t).params = minimize t.calls (P.func t.rho a) (P.grad t.rho a) s.params bnds := by
        rw [← t2]; rfl
      rw [this]
      exact hopt _ _ _ _ (by linarith) ha hs.box) h1 ⟨hs.rho, hal, hs.box, Or.inr ⟨rfl, hs.lim⟩⟩
  rcases i5 with ⟨f1, r, hr, f2⟩ | ⟨f1, f2⟩
  · refine ⟨i1, ⟨a + s1.rho * h s1.params, ?_, ?_⟩, i3, r, a, hr, ha, f2⟩
    · have := mul_nonneg (by linarith : 0 ≤ s1.rho) (hn s1.params)
      linarith
    · change s1.alpha + scale s1.rho s1.hNew = _
      rw [i2, f1]
      rfl
  · exact absurd ⟨f2, Or.inr f1⟩ hg

theorem fitLoop_descent (hsc : ∀ w, P.score w = (h w : ℝ)) (hn : ∀ w, 0 ≤ h w) (hm : RespectsBounds minimize)
    (hopt : EndsWithoutDescent P minimize bnds) {hTol rhoMax : ℝ} {fuel k : ℕ} {s s' : FitSt ℝ} (hs : Ready bnds rhoMax s)
    (hl : fitLoop P minimize bnds hTol rhoMax fuel (k + 1) s = some s') :
    ∃ r a : ℝ, 0 < r ∧ 0 ≤ a ∧ NoDescent bnds (P.func r a) s'.params := by
  induction k generalizing s with
  | zero =>
    rw [fitLoop] at hl
    cases hd : dualStep P minimize bnds rhoMax fuel s with
    | none => rw [hd] at hl; cases hl
    | some s1 =>
      rw [hd] at hl
      simp only at hl
      obtain ⟨-, -, -, d4⟩ := dualStep_descent hsc hn hm hopt hs hd
      split at hl
      · cases hl; exact d4
      · rw [fitLoop] at hl; cases hl; exact d4
  | succ k ih =>
    rw [fitLoop] at hl
    cases hd : dualStep P minimize bnds rhoMax fuel s with
    | none => rw [hd] at hl; cases hl
    | some s1 =>
      rw [hd] at hl
      simp only at hl
      obtain ⟨d1, d2, d3, d4⟩ := dualStep_descent hsc hn hm hopt hs hd
      split at hl
      · cases hl; exact d4
      · rename_i hc
        rw [not_or, not_le, not_le] at hc
        exact ih (s := { s1 with warned := decide (k + 1 = 0 ∧ (hTol : WithTop ℝ) < s1.h) }) ⟨d1, hc.2, d2, d3⟩ hl

end

/-! ### The objective along one parameter -/

theorem getD_set_ne {w : List ℝ} {k i : ℕ} {t : ℝ} (h : i ≠ k) : (w.set k t).getD i 0 = w.getD i 0 := by
  rw [List.getD_eq_getElem?_getD, List.getElem?_set_ne (Ne.symm h), ← List.getD_eq_getElem?_getD]

/-- The objective with lasso penalty along one parameter. -/
theorem primal_lasso (a : Arch) (es : List Enc) (rows : List (ℕ → ℝ)) (lasso ridge rho alpha : ℝ) {w : List ℝ}
    (h : w.length = a.sizes.sum) {k : ℕ} (hk : k < w.length) :
    ∃ c : ℝ, ∀ t, primal a es rows lasso ridge rho alpha (w.set k t) = primal a es rows 0 ridge rho alpha (w.set k t) +
      (if k < a.d * a.m1 * a.d then lasso / (a.m1 * a.d) * |t| else 0) + c := by
  have hw : ∀ t, (w.set k t).length = a.sizes.sum := fun t => by rw [List.length_set, h]
  have hself : ∀ t : ℝ, (w.set k t).getD k 0 = t := by
    intro t
    rw [List.getD_eq_getElem?_getD, List.getElem?_set_self hk]
    rfl
  by_cases hn : k < a.d * a.m1 * a.d
  · refine ⟨lasso / (a.m1 * a.d) * ∑ i ∈ (Finset.range (a.d * a.m1 * a.d)).erase k, |w.getD i 0|, fun t => ?_⟩
    rw [primal_eq _ _ _ _ _ _ _ _ (hw t), primal_eq _ _ _ _ _ _ _ _ (hw t), if_pos hn]
    unfold penalisedLoss
    rw [← Finset.add_sum_erase _ _ (Finset.mem_range.2 hn)]
    rw [hself, Finset.sum_congr rfl fun i hi => by rw [getD_set_ne (Finset.ne_of_mem_erase hi)]]
    ring
  · refine ⟨lasso / (a.m1 * a.d) * ∑ i ∈ Finset.range (a.d * a.m1 * a.d), |w.getD i 0|, fun t => ?_⟩
    rw [primal_eq _ _ _ _ _ _ _ _ (hw t), primal_eq _ _ _ _ _ _ _ _ (hw t), if_neg hn]
    unfold penalisedLoss
    rw [Finset.sum_congr rfl fun i hi => by
      rw [getD_set_ne (show i ≠ k by have := Finset.mem_range.1 hi; omega)]]
    ring

/-- **C71** for the PyTorch version: the gradient given to the optimiser consists of the partial derivatives of the objective, wherever
these exist. -/
theorem torch_gradient (a : Arch) (hc : 0 < a.clamp ∨ a.layerDims = []) (es : List Enc) (hes : ∀ e ∈ es, e.Ordered) (rows : List (ℕ → ℝ))
    (lasso ridge rho alpha : ℝ) {w : List ℝ} (h : w.length = a.sizes.sum) {k : ℕ} (hk : k < w.length)
    (hne : k < a.d * a.m1 * a.d → w.getD k 0 = 0 → lasso = 0) :
    HasDerivAt (fun t => primal a es rows lasso ridge rho alpha (w.set k t))
      (((torchProblem a es rows lasso ridge).grad rho alpha w).getD k 0) (w.getD k 0) := by
  obtain ⟨c, hcc⟩ := primal_lasso a es rows lasso ridge rho alpha h hk
  have hsm := (primal_smooth a hc es hes rows ridge rho alpha (DL.set w k)).differentiableAt (x := w.getD k 0) |>.hasDerivAt
  have hg : ((torchProblem a es rows lasso ridge).grad rho alpha w).getD k 0 =
      deriv (fun t => primal a es rows 0 ridge rho alpha (w.set k t)) (w.getD k 0) +
        lasso * (if k < a.d * a.m1 * a.d then Real.sign (w.getD k 0) / (a.d * a.m1 * a.d : ℕ) * a.d else 0) := by
    change ((List.range w.length).map _).getD k 0 = _
    rw [List.getD_eq_getElem _ _ (by simpa using hk), List.getElem_map, List.getElem_range]
    rfl
  rw [hg]
  have hfun : (fun t => primal a es rows lasso ridge rho alpha (w.set k t)) = fun t => primal a es rows 0 ridge rho alpha (w.set k t) +
      (if k < a.d * a.m1 * a.d then lasso / (a.m1 * a.d) * |t| else 0) + c := funext hcc
  rw [hfun]
  refine (hsm.fun_add ?_).add_const c
  by_cases hn : k < a.d * a.m1 * a.d
  · simp only [if_pos hn]
    have hd : (a.d : ℝ) ≠ 0 := by
      rintro h0
      rw [Nat.cast_eq_zero.1 h0] at hn
      simp at hn
    have hm : (a.m1 : ℝ) ≠ 0 := by exact_mod_cast a.m1_pos.ne'
    have hval : lasso * (Real.sign (w.getD k 0) / (a.d * a.m1 * a.d : ℕ) * a.d) = lasso / (a.m1 * a.d) * Real.sign (w.getD k 0) := by
      push_cast
      field_simp
    rw [hval]
    rcases lt_trichotomy (w.getD k 0) 0 with h0 | h0 | h0
    · rw [Real.sign_of_neg h0]
      exact (hasDerivAt_abs_neg h0).const_mul _
    · rw [hne hn h0]
      simpa using hasDerivAt_const (w.getD k 0) (0 : ℝ)
    · rw [Real.sign_of_pos h0]
      exact (hasDerivAt_abs_pos h0).const_mul _
  · simp only [if_neg hn, mul_zero]
    exact hasDerivAt_const _ _

/-- From a point without descent to a multiplier. -/
theorem descent_multiplier (a : Arch) (hc : 0 < a.clamp ∨ a.layerDims = []) (es : List Enc) (hes : ∀ e ∈ es, e.Ordered)
    (rows : List (ℕ → ℝ)) (lasso ridge r al : ℝ) {w : List ℝ} (h : w.length = a.sizes.sum) {bnds : List (Bound ℝ)} {k : ℕ} (hk : k < w.length)
    (hb : bnds[k]? = some (none, none)) (hnd : NoDescent bnds ((torchProblem a es rows lasso ridge).func r al) w) :
    ∃ D, HasDerivAt (fun t => penalisedLoss a es rows 0 ridge (w.set k t) +
        (al + r * hFunc a es (a.net w)) * hFunc a es (a.net (w.set k t))) D (w.getD k 0) ∧
      (a.d * a.m1 * a.d ≤ k → D = 0) ∧
      (k < a.d * a.m1 * a.d → (w.getD k 0 = 0 → |D| ≤ lasso / (a.m1 * a.d)) ∧ (0 < w.getD k 0 → D = -(lasso / (a.m1 * a.d))) ∧
        (w.getD k 0 < 0 → D = lasso / (a.m1 * a.d))) := by
  have hself : w.set k (w.getD k 0) = w := by rw [List.getD_eq_getElem _ _ hk, List.set_getElem_self]
  have hw : ∀ t, (w.set k t).length = a.sizes.sum := fun t => by rw [List.length_set, h]
  obtain ⟨c, hcc⟩ := primal_lasso a es rows lasso ridge r al h hk
  have hsm := (primal_smooth a hc es hes rows ridge r al (DL.set w k)).differentiableAt (x := w.getD k 0) |>.hasDerivAt
  have hh := (hFunc_smooth a es (net_smooth a (DL.set w k))).differentiableAt (x := w.getD k 0) |>.hasDerivAt
  obtain ⟨E, hE⟩ : ∃ E, deriv (fun t => primal a es rows 0 ridge r al (w.set k t)) (w.getD k 0) = E := ⟨_, rfl⟩
  rw [hE] at hsm
  have hfun : (fun t => ((torchProblem a es rows lasso ridge).func r al (w.set k t)).untopD 0) =
      fun t => primal a es rows 0 ridge r al (w.set k t) + (if k < a.d * a.m1 * a.d then lasso / (a.m1 * a.d) * |t| else 0) + c :=
    funext hcc
  obtain ⟨hr, hl⟩ := hnd k hb
  rw [hfun] at hr hl
  refine ⟨E, ?_, ?_, ?_⟩
  · have hdiff := (hsm.fun_sub ((hh.fun_pow 2).const_mul (1 / 2 * r))).fun_add ((hh.const_mul (r * hFunc a es (a.net w))))
    refine (hdiff.congr_deriv ?_).congr_of_eventuallyEq (Filter.Eventually.of_forall fun t => ?_)
    · rw [hself]
      push_cast
      ring
    · simp only
      rw [primal_eq _ _ _ _ _ _ _ _ (hw t)]
      ring
  · intro hn
    simp only [if_neg (not_lt.2 hn), add_zero] at hr hl
    exact le_antisymm (hl E (hsm.add_const c).hasDerivWithinAt) (hr E (hsm.add_const c).hasDerivWithinAt)
  · intro hn
    simp only [if_pos hn] at hr hl
    obtain ⟨lam, hlam⟩ : ∃ lam, lasso / (a.m1 * a.d : ℝ) = lam := ⟨_, rfl⟩
    rw [hlam] at hr hl ⊢
    refine ⟨fun h0 => ?_, fun h0 => ?_, fun h0 => ?_⟩
    · have e1 := hr (E + lam * 1) (((hsm.hasDerivWithinAt).fun_add (((hasDerivWithinAt_id _ _).congr
        (fun t ht => by rw [Set.mem_Ici, h0] at ht; rw [id, abs_of_nonneg ht]) (by rw [h0]; simp)).const_mul lam)).add_const c)
      have e2 := hl (E + lam * -1) (((hsm.hasDerivWithinAt).fun_add (((hasDerivWithinAt_id _ _).fun_neg.congr
        (fun t ht => by rw [Set.mem_Iic, h0] at ht; rw [id, abs_of_nonpos ht]) (by rw [h0]; simp)).const_mul lam)).add_const c)
      rw [abs_le]
      constructor <;> linarith
    · have e := (hsm.fun_add ((hasDerivAt_abs_pos h0).const_mul lam)).add_const c
      have e1 := hr _ e.hasDerivWithinAt
      have e2 := hl _ e.hasDerivWithinAt
      linarith
    · have e := (hsm.fun_add ((hasDerivAt_abs_neg h0).const_mul lam)).add_const c
      have e1 := hr _ e.hasDerivWithinAt
      have e2 := hl _ e.hasDerivWithinAt
      linarith

/-- After the preprocessing the thresholds of ordinal variables are ordered. -/
theorem prepare_ordered {X : Frame} {schema : Option (List (ℕ × Alias))} {t : Tabu ℕ} {p : Prep} (hwf : X.WF) (hd : SchemaDict schema)
    (h : prepareChecked X schema t = .ok p) : ∀ e ∈ p.encs, e.Ordered := by
  obtain ⟨-, -, -, h4, -⟩ := prepare_layout X schema t p hwf hd h
  intro e he
  have hl := h4 e he
  cases e with
  | ord i cats counts =>
    obtain ⟨hs, hcnt⟩ := hl
    change (logCumOdds counts).Pairwise (· < ·)
    by_cases h2 : 2 ≤ counts.length
    · refine (logCumOdds_ordered counts h2 ?_).1
      intro n hn
      rw [hcnt] at hn
      obtain ⟨v, hv, rfl⟩ := List.mem_map.1 hn
      exact List.count_pos_iff.2 ((hs.2 v).1 hv)
    · have hnil : logCumOdds counts = [] := by
        match counts, h2 with
        | [], _ => rfl
        | [n], _ => simp [logCumOdds, cumsum]
        | _ :: _ :: _, h2 => simp at h2
      rw [hnil]
      exact List.Pairwise.nil
  | _ => trivial

section
variable {minimize : Minimizer ℝ} {init : ℕ → ℝ} {fuel : ℕ} {X : Frame} {x : Args ℕ} {g : Learned ℕ}

/-- **C87** for the PyTorch version: if every call of the optimiser ends at a point within the bounds where no free parameter can be
changed to decrease the objective to first order, then for one multiplier `m ≥ 0` the parameters of the learned network satisfy the
first-order conditions for the losses plus ridge penalty plus `m` times the acyclicity score: the derivative is 0 in every parameter
other than the weights of the first layer; in the weights from a variable to another, if that edge is not excluded, it is balanced by the lasso
penalty. -/
theorem fromNumpy_stationary (hm : RespectsBounds minimize) (hwf : X.WF) (hd : SchemaDict x.schema) (ht : TabuBelow X.cols x.tabu)
    (h : fromNumpy minimize init fuel X x = .ok g) (hmax : x.maxIter ≠ 0) (hc : 0 < x.clamp) {p : Prep}
    (hp : prepareChecked X x.schema x.tabu = .ok p)
    (hopt : EndsWithoutDescent (torchProblem g.arch g.encs p.realRows x.lasso x.ridge) minimize (boundsOf g.arch p.tabu)) :
    ∃ m : ℝ, 0 ≤ m ∧
      (∀ k, g.arch.d * g.arch.m1 * g.arch.d ≤ k → k < g.params.length →
        HasDerivAt (fun t => penalisedLoss g.arch g.encs p.realRows 0 x.ridge (g.params.set k t) +
          m * hFunc g.arch g.encs (g.arch.net (g.params.set k t))) 0 (g.params.getD k 0)) ∧
      ∀ e ∈ g.encs, ∀ f ∈ g.encs, Permitted x.tabu e.idx f.idx → ∀ i ∈ e.cols, ∀ j ∈ f.cols, ∀ n < g.arch.m1,
        ∃ D, HasDerivAt (fun t => penalisedLoss g.arch g.encs p.realRows 0 x.ridge (g.params.set (g.arch.pos j n i) t) +
            m * hFunc g.arch g.encs (g.arch.net (g.params.set (g.arch.pos j n i) t))) D (g.params.getD (g.arch.pos j n i) 0) ∧
          (g.params.getD (g.arch.pos j n i) 0 = 0 → |D| ≤ x.lasso / (g.arch.m1 * g.arch.d)) ∧
          (0 < g.params.getD (g.arch.pos j n i) 0 → D = -(x.lasso / (g.arch.m1 * g.arch.d))) ∧
          (g.params.getD (g.arch.pos j n i) 0 < 0 → D = x.lasso / (g.arch.m1 * g.arch.d)) := by
  have hlay := (fromNumpy_layout hwf hd h).1
  obtain ⟨p', s, hp', -, hs, rfl⟩ := fromNumpy_ok h
  rw [hp] at hp'
  cases hp'
  have hord := prepare_ordered hwf hd hp
  have hbox := (fit_result hs).1 hm (initParams_inBox _ _ _)
  have hlen := inBox_length hbox
  obtain ⟨k, hk⟩ : ∃ k, x.maxIter = k + 1 := ⟨x.maxIter - 1, by omega⟩
  unfold fit at hs
  rw [hk] at hs
  obtain ⟨r, al, hr, hal, hnd⟩ := fitLoop_descent
    (h := fun w => hFunc (archOf x p.data.cols) p.encs ((archOf x p.data.cols).net w)) (fun _ => rfl)
    (fun w => (hFunc_zero_iff hlay w).1) hm hopt (fit_ready (initParams_inBox _ _ _)) hs
  obtain ⟨b1, b2, b3⟩ := bounds_only_excluded (archOf x p.data.cols) p.tabu
  have hposm := (hFunc_zero_iff hlay s.params).1
  refine ⟨al + r * hFunc (archOf x p.data.cols) p.encs ((archOf x p.data.cols).net s.params), ?_, ?_, ?_⟩
  · exact add_nonneg hal (mul_nonneg hr.le hposm)
  · intro k hk1 hk2
    obtain ⟨D, h1, h2, -⟩ := descent_multiplier _ (Or.inl hc) _ hord _ _ _ _ _ hlen hk2 (b3 k hk1 (by rw [← hlen]; exact hk2)) hnd
    rw [h2 hk1] at h1
    exact h1
  · intro e he f hf hpm i hi j hj n hn
    have hpm' := (permitted_expanded hwf hd ht hp he hf hi hj).2 hpm
    have hi' := hlay.col_lt he hi
    have hj' := hlay.col_lt hf hj
    have hlt := Arch.pos_lt (a := archOf x p.data.cols) hi' hj' hn
    have hk2 : (archOf x p.data.cols).pos j n i < s.params.length := by
      rw [hlen, ← b1]
      exact (List.getElem?_eq_some_iff.1 (b2 i j n hi' hj' hn hpm')).1
    obtain ⟨D, h1, -, h3⟩ := descent_multiplier _ (Or.inl hc) _ hord _ _ _ _ _ hlen hk2 (b2 i j n hi' hj' hn hpm') hnd
    exact ⟨D, h1, h3 hlt⟩

end

end Verif.Pytorch
