import Verif.Pytorch.LearnAcyclic
import Verif.Notears.PropsOptimal
import Mathlib.Analysis.Calculus.Deriv.Pow
import Mathlib.Analysis.Calculus.Deriv.Mul
import Mathlib.Analysis.Calculus.Deriv.Add

/-!
# The PyTorch version with a good optimiser (C86)
-/

namespace Verif.Pytorch

open Verif.Notears (Problem Minimizer Bound quarter scale InBox RespectsBounds NotWorse Penalised Found found_call FindsMinima Permitted Tabu)

/-! ### The loop -/

section
variable {P : Problem ℝ} {minimize : Minimizer ℝ} {bnds : List (Bound ℝ)} {F h : List ℝ → ℝ} {w₀ : List ℝ}

/-- What is known at the beginning of a step. -/
structure Ready (bnds : List (Bound ℝ)) (rhoMax : ℝ) (s : FitSt ℝ) : Prop where
  rho : 1 ≤ s.rho
  lim : s.rho < rhoMax
  alpha : ∃ a : ℝ, 0 ≤ a ∧ s.alpha = (a : ℝ)
  box : InBox bnds s.params

/-- One step: the point found is not worse than `w₀`, and either the score is a quarter of the last one or the penalty is at its limit. -/
theorem dualStep_found (hP : Penalised P F h) (hm : RespectsBounds minimize) (h0 : h w₀ = 0) (hw : NotWorse P minimize bnds w₀)
    {rhoMax : ℝ} {fuel : ℕ} {s s' : FitSt ℝ} (hs : Ready bnds rhoMax s) (hd : dualStep P minimize bnds rhoMax fuel s = some s') :
    1 ≤ s'.rho ∧ (∃ a : ℝ, 0 ≤ a ∧ s'.alpha = (a : ℝ)) ∧ InBox bnds s'.params ∧ s'.h = (h s'.params : ℝ) ∧
      Found F h w₀ s'.params s'.rho ∧ (s'.rho < rhoMax → ∀ x : ℝ, s.h = (x : ℝ) → h s'.params ≤ x / 4) := by
  unfold dualStep at hd
  rw [Option.map_eq_some_iff] at hd
  obtain ⟨s1, h1, rfl⟩ := hd
  obtain ⟨a, ha, hal⟩ := hs.alpha
  let I : FitSt ℝ → Prop := fun t => 1 ≤ t.rho ∧ t.alpha = (a : ℝ) ∧ InBox bnds t.params ∧ t.h = s.h ∧
    ((t.hNew = (h t.params : ℝ) ∧ Found F h w₀ t.params t.rho) ∨ (t.hNew = ⊤ ∧ t.rho < rhoMax))
  obtain ⟨⟨i1, i2, i3, i4, i5⟩, hg⟩ := stepLoop_induct I (fun t ht _ => by
    obtain ⟨t1, t2, t3, t4, t5⟩ := ht
    refine ⟨?_, t2, hm _ _ _ _ _ hs.box, t4, Or.inl ⟨hP.score _, ?_⟩⟩
    · unfold fitRound
      simp only
      split <;> linarith
    · have : (fitRound P minimize bnds s.params t).params = minimize t.calls (P.func t.rho a) (P.grad t.rho a) s.params bnds := by
        rw [← t2]; rfl
      rw [this]
      refine found_call hP h0 hw t1 ha hs.box ?_
      unfold fitRound
      simp only
      split <;> linarith) h1 ⟨hs.rho, hal, hs.box, rfl, Or.inr ⟨rfl, hs.lim⟩⟩
  rcases i5 with ⟨f1, f2⟩ | ⟨f1, f2⟩
  · refine ⟨i1, ⟨a + s1.rho * h s1.params, ?_, ?_⟩, i3, f1, f2, ?_⟩
    · have := mul_nonneg (by linarith : 0 ≤ s1.rho) (hP.nonneg s1.params)
      linarith
    · change s1.alpha + scale s1.rho s1.hNew = _
      rw [i2, f1]
      rfl
    · intro hlt x hx
      have hq : ¬ quarter s1.h < s1.hNew := fun hq => hg ⟨hlt, Or.inl hq⟩
      rw [i4, hx, f1] at hq
      by_contra hcon
      exact hq (WithTop.coe_lt_coe.2 (not_le.1 hcon))
  · exact absurd ⟨f2, Or.inr f1⟩ hg

theorem fitLoop_found (hP : Penalised P F h) (hm : RespectsBounds minimize) (h0 : h w₀ = 0) (hw : NotWorse P minimize bnds w₀)
    {hTol rhoMax : ℝ} {fuel k : ℕ} {s s' : FitSt ℝ} (hs : Ready bnds rhoMax s)
    (hl : fitLoop P minimize bnds hTol rhoMax fuel (k + 1) s = some s') :
    InBox bnds s'.params ∧ Found F h w₀ s'.params s'.rho ∧
      ∀ c, 0 ≤ hTol → (∀ w, InBox bnds w → c ≤ F w) →
        ((s.h = ⊤ ∧ 2 * (F w₀ - c) ≤ (hTol * 4 ^ k) ^ 2) ∨ ∃ x : ℝ, s.h = (x : ℝ) ∧ x ≤ hTol * 4 ^ (k + 1)) →
        h s'.params ≤ hTol ∨ rhoMax ≤ s'.rho := by
  have step : ∀ (k : ℕ) (s s1 : FitSt ℝ), Ready bnds rhoMax s → dualStep P minimize bnds rhoMax fuel s = some s1 → s1.rho < rhoMax →
      ∀ c, 0 ≤ hTol → (∀ w, InBox bnds w → c ≤ F w) →
        ((s.h = ⊤ ∧ 2 * (F w₀ - c) ≤ (hTol * 4 ^ k) ^ 2) ∨ ∃ x : ℝ, s.h = (x : ℝ) ∧ x ≤ hTol * 4 ^ (k + 1)) →
        h s1.params ≤ hTol * 4 ^ k := by
    intro k s s1 hs hd hlt c ht hc hh
    obtain ⟨d1, d2, d3, d4, ⟨r, d5, d6, d7⟩, d8⟩ := dualStep_found hP hm h0 hw hs hd
    rcases hh with ⟨-, hv⟩ | ⟨x, hx, hxb⟩
    · refine Notears.small_of_found (hc _ d3) d7 (by linarith) (by positivity) (le_trans hv ?_)
      exact le_mul_of_one_le_left (sq_nonneg _) d5
    · have := d8 hlt x hx
      rw [pow_succ] at hxb
      linarith
  induction k generalizing s with
  | zero =>
    rw [fitLoop] at hl
    cases hd : dualStep P minimize bnds rhoMax fuel s with
    | none => rw [hd] at hl; cases hl
    | some s1 =>
      rw [hd] at hl
      simp only at hl
      obtain ⟨d1, d2, d3, d4, d5, d8⟩ := dualStep_found hP hm h0 hw hs hd
      have hst := step 0 s s1 hs hd
      have hex : s'.params = s1.params ∧ s'.rho = s1.rho := by
        split at hl
        · cases hl; exact ⟨rfl, rfl⟩
        · rw [fitLoop] at hl; cases hl; exact ⟨rfl, rfl⟩
      rw [hex.1, hex.2]
      refine ⟨d3, d5, fun c ht hc hh => ?_⟩
      by_cases hlt : s1.rho < rhoMax
      · left
        have := hst hlt c ht hc hh
        simpa using this
      · exact Or.inr (not_lt.1 hlt)
  | succ k ih =>
    rw [fitLoop] at hl
    cases hd : dualStep P minimize bnds rhoMax fuel s with
    | none => rw [hd] at hl; cases hl
    | some s1 =>
      rw [hd] at hl
      simp only at hl
      obtain ⟨d1, d2, d3, d4, d5, d8⟩ := dualStep_found hP hm h0 hw hs hd
      have hst := step (k + 1) s s1 hs hd
      split at hl
      · rename_i hc
        cases hl
        refine ⟨d3, d5, fun _ _ _ _ => ?_⟩
        rw [d4] at hc
        exact hc.imp_left WithTop.coe_le_coe.1
      · rename_i hc
        rw [not_or, not_le, not_le] at hc
        obtain ⟨e1, e2, e3⟩ := ih (s := { s1 with warned := decide (k + 1 = 0 ∧ (hTol : WithTop ℝ) < s1.h) }) ⟨d1, hc.2, d2, d3⟩ hl
        exact ⟨e1, e2, fun c ht hb hh => e3 c ht hb (Or.inr ⟨_, d4, hst hc.2 c ht hb hh⟩)⟩

theorem fit_ready {w : List ℝ} (hb : InBox bnds w) : Ready bnds (10 ^ 16) (fitInit w) :=
  ⟨le_refl _, one_lt_pow₀ (by norm_num) (by norm_num), ⟨0, le_refl _, rfl⟩, hb⟩

/-- The final point is not worse than `w₀`. -/
theorem fit_best (hP : Penalised P F h) (hm : RespectsBounds minimize) {w : List ℝ} {maxIter fuel : ℕ} {s : FitSt ℝ}
    (hl : fit P minimize bnds w maxIter fuel = some s) (hmax : maxIter ≠ 0) (hb : InBox bnds w) (h0 : h w₀ = 0)
    (hw : NotWorse P minimize bnds w₀) : F s.params ≤ F w₀ := by
  obtain ⟨k, rfl⟩ : ∃ k, maxIter = k + 1 := ⟨maxIter - 1, by omega⟩
  obtain ⟨-, ⟨r, h1, -, h3⟩, -⟩ := fitLoop_found hP hm h0 hw (fit_ready hb) hl
  have := mul_nonneg (by linarith : (0 : ℝ) ≤ 1 / 2 * r) (sq_nonneg (h s.params))
  linarith

/-- At the end there was no warning, and the score is at most the tolerance, or at most `√(2 (F w₀ - c) / 1e15)`. -/
theorem fit_converges (hP : Penalised P F h) (hm : RespectsBounds minimize) {w : List ℝ} {maxIter fuel : ℕ} {s : FitSt ℝ} {c : ℝ}
    (hl : fit P minimize bnds w maxIter fuel = some s) (hmax : maxIter ≠ 0) (hb : InBox bnds w) (h0 : h w₀ = 0)
    (hw : NotWorse P minimize bnds w₀) (hc : ∀ w, InBox bnds w → c ≤ F w)
    (hit : 2 * (F w₀ - c) ≤ (1 / 10 ^ 8 * 4 ^ (maxIter - 1)) ^ 2) :
    s.warned = false ∧ (h s.params ≤ 1 / 10 ^ 8 ∨ h s.params ^ 2 ≤ 2 * (F w₀ - c) / 10 ^ 15) := by
  obtain ⟨k, rfl⟩ : ∃ k, maxIter = k + 1 := ⟨maxIter - 1, by omega⟩
  obtain ⟨h4, ⟨r, h1, h2, h3⟩, h5⟩ := fitLoop_found hP hm h0 hw (fit_ready hb) hl
  have h6 := h5 c (by positivity) hc (Or.inl ⟨rfl, hit⟩)
  refine ⟨?_, h6.imp_right fun h7 => ?_⟩
  · cases hwn : s.warned with
    | false => rfl
    | true =>
      have := (((fit_result hl).2.1 (Nat.succ_pos k)).2).1 hwn
      rw [hP.score] at this
      rcases h6 with h6 | h6
      · exact absurd (WithTop.coe_lt_coe.1 this.1) (not_lt.2 h6)
      · exact absurd this.2 (not_lt.2 h6)
  · have hr : (10 : ℝ) ^ 15 ≤ r := by
      have : (10 : ℝ) ^ 16 = 10 * 10 ^ 15 := by norm_num
      linarith
    have := hc _ h4
    rw [le_div_iff₀ (by positivity)]
    have := mul_le_mul_of_nonneg_right hr (sq_nonneg (h s.params))
    linarith

end

/-! ### Specification of the objective -/

/-- Number of weights, without the biases. -/
def Arch.weightCount (a : Arch) : ℕ := a.d * a.m1 * a.d + (a.layerDims.map fun p => a.d * p.1 * p.2).sum

/-- Specification: the losses of all variables (by C79 negative log likelihoods), plus `lasso_beta` times the sum of the absolute values of
the weights of the first layer divided by their number for one feature, plus half of `ridge_beta` times the mean of the squares of all
weights times the number of features. Biases are not penalised. -/
noncomputable def penalisedLoss (a : Arch) (es : List Enc) (rows : List (ℕ → ℝ)) (lasso ridge : ℝ) (w : List ℝ) : ℝ :=
  (es.map fun e => e.loss rows (forward a (a.net w))).sum +
    lasso * ((∑ k ∈ Finset.range (a.d * a.m1 * a.d), |w.getD k 0|) / (a.m1 * a.d)) +
    ridge / 2 * (a.d * (((∑ k ∈ Finset.range (a.d * a.m1 * a.d), w.getD k 0 ^ 2) +
      ((a.net w).layers.map fun l => (l.weight.map fun x => x ^ 2).sum).sum) / a.weightCount))

theorem slices_lengths (ns : List ℕ) (w : List ℝ) (h : w.length = ns.sum) : (slices ns w).map List.length = ns := by
  induction ns generalizing w with
  | nil => rfl
  | cons n ns ih =>
    rw [List.sum_cons] at h
    rw [slices, List.map_cons, ih _ (by rw [List.length_drop]; omega), List.length_take, h, Nat.min_eq_left (by omega)]

theorem readLayers_lengths (b : Bool) (d : ℕ) (ps : List (ℕ × ℕ)) (ts : List (List ℝ))
    (h : ts.map List.length = ps.flatMap fun p => (d * p.1 * p.2) :: (if b then [d * p.2] else [])) :
    (readLayers b ps ts).map (fun l => l.weight.length) = ps.map fun p => d * p.1 * p.2 := by
  induction ps generalizing ts with
  | nil => rfl
  | cons p ps ih =>
    rw [List.flatMap_cons] at h
    cases b with
    | true =>
      match ts, h with
      | t1 :: t2 :: ts, h =>
        simp only [if_true, List.map_cons, List.cons_append, List.nil_append, List.cons.injEq] at h
        rw [readLayers, if_pos rfl, List.map_cons, List.map_cons]
        simp only [List.headD_cons, List.tail_cons]
        rw [h.1, ih ts (by simpa using h.2.2)]
      | [t1], h => simp at h
      | [], h => simp at h
    | false =>
      match ts, h with
      | t1 :: ts, h =>
        simp only [Bool.false_eq_true, if_false, List.map_cons, List.cons_append, List.nil_append, List.cons.injEq] at h
        rw [readLayers, if_neg (by simp), List.map_cons, List.map_cons]
        simp only [List.headD_cons, List.tail_cons]
        rw [h.1, ih ts (by simpa using h.2)]
      | [], h => simp at h

theorem net_lengths (a : Arch) (w : List ℝ) (h : w.length = a.sizes.sum) : (a.net w).weight.length = a.d * a.m1 * a.d ∧
    (a.net w).layers.map (fun l => l.weight.length) = a.layerDims.map fun p => a.d * p.1 * p.2 := by
  have hs := slices_lengths a.sizes w h
  unfold Arch.net
  unfold Arch.sizes at hs ⊢
  generalize slices _ w = ts at hs
  cases hb : a.useBias with
  | true =>
    rw [hb] at hs
    match ts, hs with
    | t1 :: t2 :: ts, hs =>
      simp only [if_true, List.map_cons, List.cons_append, List.nil_append, List.cons.injEq] at hs
      simp only [if_true, List.headD_cons, List.tail_cons]
      exact ⟨hs.1, readLayers_lengths true a.d _ ts (by simpa using hs.2.2)⟩
    | [t1], hs => simp at hs
    | [], hs => simp at hs
  | false =>
    rw [hb] at hs
    match ts, hs with
    | t1 :: ts, hs =>
      simp only [Bool.false_eq_true, if_false, List.map_cons, List.cons_append, List.nil_append, List.cons.injEq] at hs
      simp only [Bool.false_eq_true, if_false, List.headD_cons, List.tail_cons]
      exact ⟨hs.1, readLayers_lengths false a.d _ ts (by simpa using hs.2)⟩
    | [], hs => simp at hs

theorem sum_getD (f : ℝ → ℝ) (l : List ℝ) : (l.map f).sum = ∑ k ∈ Finset.range l.length, f (l.getD k 0) := by
  induction l with
  | nil => rfl
  | cons x l ih => rw [List.map_cons, List.sum_cons, List.length_cons, Finset.sum_range_succ', ih, add_comm]; rfl

theorem first_sum (a : Arch) (f : ℝ → ℝ) (w : List ℝ) (h : w.length = a.sizes.sum) :
    ((a.net w).weight.map f).sum = ∑ k ∈ Finset.range (a.d * a.m1 * a.d), f (w.getD k 0) := by
  rw [sum_getD, (net_lengths a w h).1]
  exact Finset.sum_congr rfl fun k hk => by rw [a.net_weight w (Finset.mem_range.1 hk)]

/-- The objective of the code for parameters of the right shape is the specified one plus the penalty for the score. -/
theorem primal_eq (a : Arch) (es : List Enc) (rows : List (ℕ → ℝ)) (lasso ridge rho alpha : ℝ) (w : List ℝ)
    (h : w.length = a.sizes.sum) :
    primal a es rows lasso ridge rho alpha w = penalisedLoss a es rows lasso ridge w +
      (1 / 2 * rho * hFunc a es (a.net w) ^ 2 + alpha * hFunc a es (a.net w)) := by
  have hl1 : l1Reg a (a.net w) = (∑ k ∈ Finset.range (a.d * a.m1 * a.d), |w.getD k 0|) / (a.m1 * a.d) := by
    unfold l1Reg
    rw [first_sum a _ w h, (net_lengths a w h).1]
    by_cases hd : a.d = 0
    · rw [hd]; simp
    · have hd' : (a.d : ℝ) ≠ 0 := by exact_mod_cast hd
      have hm : (a.m1 : ℝ) ≠ 0 := by exact_mod_cast a.m1_pos.ne'
      push_cast
      field_simp
  have hl2 : l2Reg a (a.net w) = a.d * (((∑ k ∈ Finset.range (a.d * a.m1 * a.d), w.getD k 0 ^ 2) +
      ((a.net w).layers.map fun l => (l.weight.map fun x => x ^ 2).sum).sum) / a.weightCount) := by
    unfold l2Reg
    simp only
    have h2 : (a.net w).weight.length + ((a.net w).layers.flatMap Layer.weight).length = a.weightCount := by
      rw [(net_lengths a w h).1, List.length_flatMap, (net_lengths a w h).2]
      rfl
    rw [List.map_append, List.sum_append, first_sum a _ w h, List.length_append, h2, List.map_flatMap, List.flatMap_def,
      List.sum_flatten, List.map_map, mul_comm]
    rfl
  unfold primal penalisedLoss
  simp only
  rw [hl1, hl2]
  ring

/-- The objective for all parameters, and the penalised loss as the code computes it. -/
noncomputable def codeLoss (a : Arch) (es : List Enc) (rows : List (ℕ → ℝ)) (lasso ridge : ℝ) (w : List ℝ) : ℝ :=
  primal a es rows lasso ridge 0 0 w

theorem codeLoss_eq (a : Arch) (es : List Enc) (rows : List (ℕ → ℝ)) (lasso ridge : ℝ) (w : List ℝ) (h : w.length = a.sizes.sum) :
    codeLoss a es rows lasso ridge w = penalisedLoss a es rows lasso ridge w := by
  unfold codeLoss
  rw [primal_eq _ _ _ _ _ _ _ _ h]
  ring

theorem torch_penalised {a : Arch} {es : List Enc} {n : ℕ} (hl : Layout es n a.d) (rows : List (ℕ → ℝ)) (lasso ridge : ℝ) :
    Penalised (torchProblem a es rows lasso ridge) (codeLoss a es rows lasso ridge) fun w => hFunc a es (a.net w) where
  func rho alpha w := by
    change ((_ : ℝ) : WithTop ℝ) = _
    congr 1
    unfold codeLoss primal
    ring
  score w := rfl
  nonneg w := (hFunc_zero_iff hl w).1

theorem inBox_length {a : Arch} {t : Tabu ℕ} {w : List ℝ} (h : InBox (boundsOf a t) w) : w.length = a.sizes.sum := by
  rw [← h.length_eq, (bounds_only_excluded a t).1]

/-- Parameters of the right shape without weights between excluded columns are within the bounds. -/
theorem inBox_permitted {a : Arch} {t : Tabu ℕ} {w : List ℝ} (hlen : w.length = a.sizes.sum)
    (hw : ∀ i j h, i < a.d → j < a.d → h < a.m1 → w.getD (a.pos j h i) 0 ≠ 0 → Permitted t i j) : InBox (boundsOf a t) w := by
  obtain ⟨hl, hper, hfree⟩ := bounds_only_excluded a t
  unfold InBox
  rw [List.forall₂_iff_get]
  refine ⟨by rw [hl, hlen], ?_⟩
  intro k h1 h2
  rw [List.get_eq_getElem, List.get_eq_getElem]
  by_cases hk : k < a.d * a.m1 * a.d
  · have hd : 0 < a.d := by
      rcases Nat.eq_zero_or_pos a.d with h0 | h0
      · rw [h0] at hk; simp at hk
      · exact h0
    have hpos : k = a.pos (k / a.d / a.m1) (k / a.d % a.m1) (k % a.d) := by
      unfold Arch.pos
      rw [Nat.div_add_mod', Nat.div_add_mod']
    have hi : k % a.d < a.d := Nat.mod_lt _ hd
    have hh : k / a.d % a.m1 < a.m1 := Nat.mod_lt _ a.m1_pos
    have hj : k / a.d / a.m1 < a.d := by
      rw [Nat.div_lt_iff_lt_mul a.m1_pos, Nat.div_lt_iff_lt_mul hd]
      exact hk
    have hval : w.getD k 0 = w[k]'(by simpa using h2) := by
      rw [List.getD_eq_getElem?_getD, List.getElem?_eq_getElem (by simpa using h2)]
      rfl
    by_cases hp : Permitted t (k % a.d) (k / a.d / a.m1)
    · have := hper _ _ _ hi hj hh hp
      rw [← hpos, List.getElem?_eq_getElem h1, Option.some.injEq] at this
      rw [this]
      simp
    · have h0 : w.getD k 0 = 0 := by
        by_contra hne
        rw [hpos] at hne
        exact hp (hw _ _ _ hi hj hh hne)
      have hb := boundsOf_get a t hi hj hh
      rw [← hpos, List.getElem?_eq_getElem h1, Option.some.injEq] at hb
      rw [← hval, h0, hb]
      unfold Notears.bound
      split_ifs <;> simp
  · have := hfree k (by omega) (by rw [← hl]; exact h1)
    rw [List.getElem?_eq_getElem h1, Option.some.injEq] at this
    rw [this]
    simp

section
variable {minimize : Minimizer ℝ} {init : ℕ → ℝ} {fuel : ℕ} {X : Frame} {x : Args ℕ} {g : Learned ℕ}

/-- The data after preprocessing, as rows of real numbers. -/
noncomputable def Prep.realRows (p : Prep) : List (ℕ → ℝ) := p.data.rows.map realRow

/-- **C86** for the PyTorch version: the learned network has a penalised loss not larger than that of any network of the same shape whose
first layer has no cycle between the variables and that the optimiser, whenever called, does not miss. -/
theorem fromNumpy_best (hm : RespectsBounds minimize) (hwf : X.WF) (hd : SchemaDict x.schema)
    (h : fromNumpy minimize init fuel X x = .ok g) (hmax : x.maxIter ≠ 0) {p : Prep}
    (hp : prepareChecked X x.schema x.tabu = .ok p) {w₀ : List ℝ} (hlen : w₀.length = g.arch.sizes.sum)
    (hac : ∀ u, ¬ Relation.TransGen (WeightEdge g.arch w₀ g.encs) u u)
    (hw : NotWorse (torchProblem g.arch g.encs p.realRows x.lasso x.ridge) minimize (boundsOf g.arch p.tabu) w₀) :
    penalisedLoss g.arch g.encs p.realRows x.lasso x.ridge g.params ≤ penalisedLoss g.arch g.encs p.realRows x.lasso x.ridge w₀ := by
  have hlay := (fromNumpy_layout hwf hd h).1
  obtain ⟨p', s, hp', -, hs, rfl⟩ := fromNumpy_ok h
  rw [hp] at hp'
  cases hp'
  have hlen' := inBox_length ((fit_result hs).1 hm (initParams_inBox _ _ _))
  have := fit_best (torch_penalised hlay _ _ _) hm hs hmax (initParams_inBox _ _ _) ((hFunc_zero_iff hlay w₀).2.2 hac) hw
  exact (codeLoss_eq _ _ _ _ _ _ hlen').symm.le.trans (this.trans (codeLoss_eq _ _ _ _ _ _ hlen).le)

/-- **C86** for the PyTorch version: with an optimiser that finds minima the learned network has a penalised loss not larger than that of
any network of the same shape that uses no excluded edges and has no cycle between the variables. -/
theorem fromNumpy_minimum (hm : RespectsBounds minimize) (hwf : X.WF) (hd : SchemaDict x.schema) (ht : TabuBelow X.cols x.tabu)
    (h : fromNumpy minimize init fuel X x = .ok g) (hmax : x.maxIter ≠ 0) {p : Prep}
    (hp : prepareChecked X x.schema x.tabu = .ok p)
    (hopt : FindsMinima (torchProblem g.arch g.encs p.realRows x.lasso x.ridge) minimize (boundsOf g.arch p.tabu))
    {w₀ : List ℝ} (hlen : w₀.length = g.arch.sizes.sum) (hac : ∀ u, ¬ Relation.TransGen (WeightEdge g.arch w₀ g.encs) u u)
    (hper : ∀ u v, WeightEdge g.arch w₀ g.encs u v → Permitted x.tabu u v) :
    penalisedLoss g.arch g.encs p.realRows x.lasso x.ridge g.params ≤ penalisedLoss g.arch g.encs p.realRows x.lasso x.ridge w₀ := by
  refine fromNumpy_best hm hwf hd h hmax hp hlen hac (hopt _ (inBox_permitted hlen ?_))
  intro i j k hi hj hk hne
  have hlay := (fromNumpy_layout hwf hd h).1
  obtain ⟨e, he, hie⟩ := hlay.owner hi
  obtain ⟨f, hf, hjf⟩ := hlay.owner hj
  have henc : g.encs = p.encs := by
    obtain ⟨p', s, hp', -, -, rfl⟩ := fromNumpy_ok h
    rw [hp] at hp'
    cases hp'
    rfl
  refine (permitted_expanded hwf hd ht hp (henc ▸ he) (henc ▸ hf) hie hjf).2 ?_
  exact hper _ _ ⟨e, he, f, hf, rfl, rfl, i, hie, j, hjf, k, hk, hne⟩

/-- **C86** for the PyTorch version, convergence: if the optimiser does not miss `w₀`, whose first layer has no cycle, `c` is a lower bound
of the penalised loss and `max_iter` is large enough for the difference `D` between the two, then there is no warning and the final score is
at most `1e-8` or at most the square root of `2 D / 1e15`. -/
theorem fromNumpy_converges (hm : RespectsBounds minimize) (hwf : X.WF) (hd : SchemaDict x.schema)
    (h : fromNumpy minimize init fuel X x = .ok g) (hmax : x.maxIter ≠ 0) {p : Prep}
    (hp : prepareChecked X x.schema x.tabu = .ok p) {w₀ : List ℝ} (hlen : w₀.length = g.arch.sizes.sum)
    (hac : ∀ u, ¬ Relation.TransGen (WeightEdge g.arch w₀ g.encs) u u)
    (hw : NotWorse (torchProblem g.arch g.encs p.realRows x.lasso x.ridge) minimize (boundsOf g.arch p.tabu) w₀) {c : ℝ}
    (hc : ∀ w, w.length = g.arch.sizes.sum → c ≤ penalisedLoss g.arch g.encs p.realRows x.lasso x.ridge w)
    (hit : 2 * (penalisedLoss g.arch g.encs p.realRows x.lasso x.ridge w₀ - c) ≤ (1 / 10 ^ 8 * 4 ^ (x.maxIter - 1)) ^ 2) :
    g.warned = false ∧ (g.score ≤ 1 / 10 ^ 8 ∨
      g.score ^ 2 ≤ 2 * (penalisedLoss g.arch g.encs p.realRows x.lasso x.ridge w₀ - c) / 10 ^ 15) := by
  have hlay := (fromNumpy_layout hwf hd h).1
  obtain ⟨p', s, hp', -, hs, rfl⟩ := fromNumpy_ok h
  rw [hp] at hp'
  cases hp'
  have := fit_converges (torch_penalised hlay _ _ _) hm hs hmax (initParams_inBox _ _ _) ((hFunc_zero_iff hlay w₀).2.2 hac) hw
    (c := c) (fun w hw => (hc w (inBox_length hw)).trans (codeLoss_eq _ _ _ _ _ _ (inBox_length hw)).symm.le)
    (le_of_eq_of_le (by rw [codeLoss_eq _ _ _ _ _ _ hlen]; rfl) hit)
  rw [codeLoss_eq _ _ _ _ _ _ hlen] at this
  exact this

end

end Verif.Pytorch
