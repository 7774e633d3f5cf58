import Verif.Notears.Multiplier
import Verif.Notears.PropsOptimal
import Mathlib.Analysis.Calculus.Deriv.Pi
import Mathlib.Analysis.Calculus.Deriv.Shift

/-!
# C87: the learned weights are stationary
-/

namespace Verif.Notears

open Matrix Finset

/-! ### Specification -/

/-- The weights with that of the edge from `i` to `j` replaced. -/
def withEntry (W : ℕ → ℕ → ℝ) (i j : ℕ) (t : ℝ) : ℕ → ℕ → ℝ := fun a b => if a = i ∧ b = j then t else W a b

/-- The acyclicity score of weights between `d` nodes. -/
noncomputable def dagScore (d : ℕ) (W : ℕ → ℕ → ℝ) : ℝ := expScore fun i j : Fin d => W i j

/-! ### Derivatives in one coordinate -/

theorem getD_set (w : List ℝ) {k : ℕ} (hk : k < w.length) (t : ℝ) (l : ℕ) : (w.set k t).getD l 0 = if l = k then t else w.getD l 0 := by
  rw [List.getD_eq_getElem?_getD, List.getD_eq_getElem?_getD, List.getElem?_set]
  by_cases h : l = k
  · subst h; simp [hk]
  · rw [if_neg (Ne.symm h), if_neg h]

theorem set_ofFn {N : ℕ} (v : Fin N → ℝ) (k : Fin N) (t : ℝ) : (List.ofFn v).set k t = List.ofFn (Function.update v k t) := by
  refine List.ext_getElem (by simp) fun l h1 h2 => ?_
  rw [List.getElem_set, List.getElem_ofFn, List.getElem_ofFn]
  by_cases h : (k : ℕ) = l
  · subst h; simp
  · rw [if_neg h, Function.update_of_ne]
    intro h'
    exact h (by rw [← h'])

/-- What a gradient says in one coordinate. -/
theorem IsGradient.coord {N : ℕ} {func : List ℝ → WithTop ℝ} {grad : List ℝ → List ℝ} (hG : IsGradient N func grad) {w : List ℝ}
    (hw : w.length = N) {k : ℕ} (hk : k < N) : ∃ f : ℝ → ℝ, (∀ t, func (w.set k t) = (f t : ℝ)) ∧
      HasDerivAt f ((grad w).getD k 0) (w.getD k 0) := by
  obtain ⟨f, g, h1, h2, h3⟩ := hG
  subst hw
  obtain ⟨v, hv⟩ : ∃ v : Fin w.length → ℝ, w = List.ofFn v := ⟨w.get, (List.ofFn_get w).symm⟩
  refine ⟨fun t => f (Function.update v ⟨k, hk⟩ t), ?_, ?_⟩
  · intro t
    rw [← h1]
    congr 1
    have := set_ofFn v ⟨k, hk⟩ t
    rw [← hv] at this
    exact this
  · have hgk : (grad w).getD k 0 = g v ⟨k, hk⟩ := by
      have : grad w = List.ofFn (g v) := by rw [← h2, ← hv]
      rw [this]
      exact getD_ofFn (g v) hk
    have hwk : w.getD k 0 = v ⟨k, hk⟩ := by
      have := getD_ofFn v hk
      rw [← hv] at this
      exact this
    rw [hgk, hwk]
    have hu : HasDerivAt (fun t => Function.update v ⟨k, hk⟩ t) (Pi.single ⟨k, hk⟩ 1) (v ⟨k, hk⟩) :=
      hasDerivAt_update v ⟨k, hk⟩ (v ⟨k, hk⟩)
    have hf : HasFDerivAt f (∑ l, g v l • (ContinuousLinearMap.proj l : (Fin w.length → ℝ) →L[ℝ] ℝ))
        (Function.update v ⟨k, hk⟩ (v ⟨k, hk⟩)) := by
      rw [Function.update_eq_self]; exact h3 v
    have := hf.comp_hasDerivAt (v ⟨k, hk⟩) hu
    refine this.congr_deriv ?_
    simp only [ContinuousLinearMap.sum_apply, ContinuousLinearMap.smul_apply, ContinuousLinearMap.proj_apply, smul_eq_mul]
    rw [Finset.sum_eq_single ⟨k, hk⟩]
    · simp
    · intro l _ hl
      rw [Pi.single_eq_of_ne hl, mul_zero]
    · simp

/-- Positive and negative parts of a weight at a stationary point. -/
theorem split_stationary {bnds : List (Bound ℝ)} {w g : List ℝ} (hbox : InBox bnds w) (hs : Stationary bnds w g) {p q : ℕ}
    (hp : bnds[p]? = some (some 0, none)) (hq : bnds[q]? = some (some 0, none)) {D beta : ℝ} (hgp : g.getD p 0 = D + beta)
    (hgq : g.getD q 0 = -D + beta) : |D| ≤ beta ∧ (0 < w.getD p 0 - w.getD q 0 → D = -beta) ∧
      (w.getD p 0 - w.getD q 0 < 0 → D = beta) := by
  have hp0 := (inBox_getD hbox hp).1 0 rfl
  have hq0 := (inBox_getD hbox hq).1 0 rfl
  have p1 := (hs p _ hp).1
  have q1 := (hs q _ hq).1
  have p2 : 0 ≤ g.getD p 0 := (hs p _ hp).2 (by simp)
  have q2 : 0 ≤ g.getD q 0 := (hs q _ hq).2 (by simp)
  rw [hgp] at p1 p2
  rw [hgq] at q1 q2
  refine ⟨abs_le.2 ⟨by linarith, by linarith⟩, fun h => ?_, fun h => ?_⟩
  · have := p1 fun l hl => by
      obtain rfl : (0 : ℝ) = l := Option.some.inj hl
      linarith
    linarith
  · have := q1 fun l hl => by
      obtain rfl : (0 : ℝ) = l := Option.some.inj hl
      linarith
    linarith

/-! ### `from_numpy` -/

theorem objGrad_rule {n d : ℕ} (X : Matrix (Fin n) (Fin d) ℝ) (rho alpha : ℝ) (W : Matrix (Fin d) (Fin d) ℝ) :
    objGrad X rho alpha W = objGrad X 0 (alpha + rho * expScore W) W := by
  unfold objGrad expScore
  simp only [Fintype.card_fin, zero_mul, zero_add]
  rw [add_comm alpha]

theorem problem_rule (X : Data ℝ) : MultiplierRule (problem X) fun w => expScore (mat X.cols w) where
  grad rho alpha w := by
    change flatten (objGrad X.matrix rho alpha (mat X.cols w)) = flatten (objGrad X.matrix 0 _ (mat X.cols w))
    rw [objGrad_rule]
    rfl
  score w := rfl
  nonneg w := expScore_nonneg _

theorem problemLasso_rule (beta : ℝ) (X : Data ℝ) : MultiplierRule (problemLasso beta X) fun w => expScore (matSplit X.cols w) where
  grad rho alpha w := by
    unfold problemLasso
    simp only
    rw [objGrad_rule]
    rfl
  score w := rfl
  nonneg w := expScore_nonneg _

theorem index_lt {d i j : ℕ} (hi : i < d) (hj : j < d) : i * d + j < d * d := cell_lt (⟨i, hi⟩ : Fin d) (⟨j, hj⟩ : Fin d)

theorem index_inj {d i j a b : ℕ} (hj : j < d) (hb : b < d) : a * d + b = i * d + j ↔ a = i ∧ b = j := by
  constructor
  · intro h
    have h1 : (a * d + b) / d = (i * d + j) / d := by rw [h]
    have h2 : (a * d + b) % d = (i * d + j) % d := by rw [h]
    rw [Nat.add_comm, Nat.add_mul_div_right _ _ (by omega), Nat.add_comm (i * d), Nat.add_mul_div_right _ _ (by omega),
      Nat.div_eq_of_lt hb, Nat.div_eq_of_lt hj] at h1
    rw [Nat.add_comm, Nat.add_mul_mod_self_right, Nat.add_comm (i * d), Nat.add_mul_mod_self_right,
      Nat.mod_eq_of_lt hb, Nat.mod_eq_of_lt hj] at h2
    omega
  · rintro ⟨rfl, rfl⟩; rfl

section
variable {minimize : Minimizer ℝ} {fuel : ℕ} {beta : ℝ} {X : Data ℝ} {a : Params ℝ ℕ} {g : Graph ℕ ℝ}

/-- **C87** for `from_numpy`: if every call of the optimiser ends at a stationary point within the bounds, the graph is that of weights
at which, for one multiplier `m ≥ 0`, the derivative of squared error plus `m` times acyclicity score in the weight of every permitted
edge is zero. -/
theorem notears_stationary (hm : RespectsBounds minimize) (h : notears minimize fuel X a = .ok g) (hmax : a.maxIter ≠ 0)
    (hopt : FindsStationary (problem X) minimize (box X.cols a.tabu)) :
    ∃ (W : ℕ → ℕ → ℝ) (m : ℝ), (∀ i j x o, (⟨i, j, x, o⟩ : Edge ℕ ℝ) ∈ g.edges ↔ i < X.cols ∧ j < X.cols ∧ W i j = x ∧ x ≠ 0 ∧
        a.wThreshold < |x| ∧ o = "unknown") ∧ 0 ≤ m ∧
      (∀ i < X.cols, ∀ j < X.cols, ¬ Permitted a.tabu i j → W i j = 0) ∧
      ∀ i < X.cols, ∀ j < X.cols, Permitted a.tabu i j →
        HasDerivAt (fun t => squaredError X (withEntry W i j t) + m * dagScore X.cols (withEntry W i j t)) 0 (W i j) := by
  obtain ⟨-, -, s, hs, rfl⟩ := fromNumpy_ok.1 h
  obtain ⟨m, hm0, hst, -⟩ := learnLoop_stationary (problem_rule X) hm hopt hs hmax (box_zero _ _)
  have hbox : InBox (box X.cols a.tabu) s.wEst := learnLoop_inBox hm hs (box_zero _ _)
  have hget : ∀ i < X.cols, ∀ j < X.cols, (box X.cols a.tabu)[i * X.cols + j]? = some (bound a.tabu (none, none) (i, j)) := by
    intro i hi j hj
    rw [box, List.getElem?_map, cells_get hi hj]
    rfl
  refine ⟨reshape X.cols s.wEst, m, ?_, hm0, ?_, ?_⟩
  · intro i j x o
    rw [mem_ofMatrix, reshape_map _ _ _ (cutPlain_zero _)]
    simp only
    constructor
    · rintro ⟨h1, h2, h3, h4, h5⟩
      have h6 := cutPlain_ne_zero.1 h3
      rw [cutPlain_eq h3] at h4
      subst h4
      exact ⟨h1, h2, rfl, h6.1, h6.2, h5⟩
    · rintro ⟨h1, h2, rfl, h4, h5, h6⟩
      have h3 := cutPlain_ne_zero.2 ⟨h4, h5⟩
      exact ⟨h1, h2, h3, (cutPlain_eq h3).symm, h6⟩
  · intro i hi j hj hp
    have := inBox_getD hbox (hget i hi j hj)
    rw [bound_zero hp] at this
    exact le_antisymm (this.2 0 rfl) (this.1 0 rfl)
  · intro i hi j hj hp
    have hlen : s.wEst.length = X.cols * X.cols := by rw [← hbox.length_eq, box, List.length_map, cells_length]
    have hk := index_lt hi hj
    obtain ⟨f, hf, hd⟩ := (problem_gradient X 0 m).coord hlen hk
    have hz : ((problem X).grad 0 m s.wEst).getD (i * X.cols + j) 0 = 0 := by
      have := hst _ _ (hget i hi j hj)
      rw [bound_free hp] at this
      exact le_antisymm (this.1 (by simp)) (this.2 (by simp))
    rw [hz] at hd
    change HasDerivAt f 0 (reshape X.cols s.wEst i j) at hd
    refine hd.congr_of_eventuallyEq (Filter.Eventually.of_forall fun t => ?_)
    have h1 := hf t
    rw [(problem_penalised X).func] at h1
    have h1 := WithTop.coe_injective h1
    rw [← h1]
    have e : ∀ a < X.cols, ∀ b < X.cols, reshape X.cols (s.wEst.set (i * X.cols + j) t) a b =
        withEntry (reshape X.cols s.wEst) i j t a b := by
      intro a ha b hb
      unfold reshape withEntry
      rw [getD_set _ (by omega)]
      simp only [index_inj hj hb]
    rw [squaredError_congr X e]
    have e2 : mat X.cols (s.wEst.set (i * X.cols + j) t) = fun a b : Fin X.cols => withEntry (reshape X.cols s.wEst) i j t a b := by
      funext a b
      exact e a a.2 b b.2
    rw [e2]
    unfold dagScore
    ring

/-- **C87** for `from_numpy_lasso`: if every call of the optimiser ends at a stationary point within the bounds, the graph is that of
weights at which, for one multiplier `m ≥ 0`, the derivative `D` of squared error plus `m` times acyclicity score in the weight of every
permitted edge is between `-beta` and `beta`, is `-beta` if the weight is positive and `beta` if it is negative. -/
theorem notearsLasso_stationary (hm : RespectsBounds minimize) (h : notearsLasso minimize fuel beta X a = .ok g) (hmax : a.maxIter ≠ 0)
    (hopt : FindsStationary (problemLasso beta X) minimize (boxLasso X.cols a.tabu)) :
    ∃ (W : ℕ → ℕ → ℝ) (m : ℝ), (∀ i j x o, (⟨i, j, x, o⟩ : Edge ℕ ℝ) ∈ g.edges ↔ i < X.cols ∧ j < X.cols ∧ W i j = x ∧ x ≠ 0 ∧
        a.wThreshold ≤ |x| ∧ o = "unknown") ∧ 0 ≤ m ∧
      (∀ i < X.cols, ∀ j < X.cols, ¬ Permitted a.tabu i j → W i j = 0) ∧
      ∀ i < X.cols, ∀ j < X.cols, Permitted a.tabu i j → ∃ D,
        HasDerivAt (fun t => squaredError X (withEntry W i j t) + m * dagScore X.cols (withEntry W i j t)) D (W i j) ∧
        |D| ≤ beta ∧ (0 < W i j → D = -beta) ∧ (W i j < 0 → D = beta) := by
  obtain ⟨-, -, s, hs, rfl⟩ := fromNumpyLasso_ok.1 h
  obtain ⟨m, hm0, hst, -⟩ := learnLoop_stationary (problemLasso_rule beta X) hm hopt hs hmax (boxLasso_zero _ _)
  have hbox : InBox (boxLasso X.cols a.tabu) s.wEst := learnLoop_inBox hm hs (boxLasso_zero _ _)
  have hlen : s.wEst.length = 2 * X.cols * X.cols := by
    rw [← hbox.length_eq, boxLasso, List.length_append, List.length_map, cells_length, Nat.mul_assoc]; omega
  have hcl : ((cells X.cols).map (bound a.tabu ((some 0, none) : Bound ℝ))).length = X.cols * X.cols := by
    rw [List.length_map, cells_length]
  have hget : ∀ i < X.cols, ∀ j < X.cols, ((cells X.cols).map (bound a.tabu ((some 0, none) : Bound ℝ)))[i * X.cols + j]? =
      some (bound a.tabu (some 0, none) (i, j)) := by
    intro i hi j hj
    rw [List.getElem?_map, cells_get hi hj]
    rfl
  have hget0 : ∀ i < X.cols, ∀ j < X.cols, (boxLasso X.cols a.tabu)[i * X.cols + j]? = some (bound a.tabu (some 0, none) (i, j)) := by
    intro i hi j hj
    have := index_lt hi hj
    rw [boxLasso, List.getElem?_append_left (by rw [hcl]; exact this), hget i hi j hj]
  have hget1 : ∀ i < X.cols, ∀ j < X.cols, (boxLasso X.cols a.tabu)[X.cols * X.cols + (i * X.cols + j)]? =
      some (bound a.tabu (some 0, none) (i, j)) := by
    intro i hi j hj
    rw [boxLasso, List.getElem?_append_right (by rw [hcl]; omega), hcl, Nat.add_sub_cancel_left, hget i hi j hj]
  have hsplit : ∀ (w : List ℝ), ∀ i < X.cols, ∀ j < X.cols, splitMatrix X.cols w i j = w.getD (i * X.cols + j) 0 -
      w.getD (X.cols * X.cols + (i * X.cols + j)) 0 := by
    intro w i hi j hj
    have := index_lt hi hj
    unfold splitMatrix reshape
    simp only [sq, List.getD_eq_getElem?_getD]
    rw [List.getElem?_take_of_lt this, List.getElem?_drop]
  refine ⟨splitMatrix X.cols s.wEst, m, ?_, hm0, ?_, ?_⟩
  · intro i j x o
    rw [mem_ofMatrix]
    simp only
    constructor
    · rintro ⟨h1, h2, h3, h4, h5⟩
      have h6 := cutStrict_ne_zero.1 h3
      rw [cutStrict_eq h3] at h4
      subst h4
      exact ⟨h1, h2, rfl, h6.1, h6.2, h5⟩
    · rintro ⟨h1, h2, rfl, h4, h5, h6⟩
      have h3 := cutStrict_ne_zero.2 ⟨h4, h5⟩
      exact ⟨h1, h2, h3, (cutStrict_eq h3).symm, h6⟩
  · intro i hi j hj hp
    have h0 := inBox_getD hbox (hget0 i hi j hj)
    have h1 := inBox_getD hbox (hget1 i hi j hj)
    rw [bound_zero hp] at h0 h1
    rw [hsplit _ i hi j hj, le_antisymm (h0.2 0 rfl) (h0.1 0 rfl), le_antisymm (h1.2 0 rfl) (h1.1 0 rfl), sub_zero]
  · intro i hi j hj hp
    have hk := index_lt hi hj
    have hk2 : i * X.cols + j < 2 * X.cols * X.cols := by rw [Nat.mul_assoc]; omega
    have hp0 := hget0 i hi j hj
    have hp1 := hget1 i hi j hj
    rw [bound_free hp] at hp0 hp1
    have hfl : (flatten (objGrad X.matrix 0 m (matSplit X.cols s.wEst))).length = X.cols * X.cols := by
      rw [flatten, List.length_ofFn]
    obtain ⟨D, hD⟩ : ∃ D, (flatten (objGrad X.matrix 0 m (matSplit X.cols s.wEst))).getD (i * X.cols + j) 0 = D := ⟨_, rfl⟩
    have hmap : ∀ (l : List ℝ) (f : ℝ → ℝ) (k : ℕ), k < l.length → (l.map f).getD k 0 = f (l.getD k 0) := by
      intro l f k hk
      rw [List.getD_eq_getElem _ _ (by simpa using hk), List.getD_eq_getElem _ _ hk, List.getElem_map]
    have hg0 : ((problemLasso beta X).grad 0 m s.wEst).getD (i * X.cols + j) 0 = D + beta := by
      change ((flatten (objGrad X.matrix 0 m (matSplit X.cols s.wEst))).map (fun x => x + beta) ++
        (flatten (objGrad X.matrix 0 m (matSplit X.cols s.wEst))).map fun x => -x + beta).getD _ _ = _
      rw [List.getD_append _ _ _ _ (by rw [List.length_map, hfl]; exact hk), hmap _ _ _ (by rw [hfl]; exact hk), hD]
    have hg1 : ((problemLasso beta X).grad 0 m s.wEst).getD (X.cols * X.cols + (i * X.cols + j)) 0 = -D + beta := by
      change ((flatten (objGrad X.matrix 0 m (matSplit X.cols s.wEst))).map (fun x => x + beta) ++
        (flatten (objGrad X.matrix 0 m (matSplit X.cols s.wEst))).map fun x => -x + beta).getD _ _ = _
      rw [List.getD_append_right _ _ _ _ (by rw [List.length_map, hfl]; omega), List.length_map, hfl, Nat.add_sub_cancel_left,
        hmap _ _ _ (by rw [hfl]; exact hk), hD]
    have hS := split_stationary hbox hst hp0 hp1 hg0 hg1
    rw [← hsplit _ i hi j hj] at hS
    refine ⟨D, ?_, hS⟩
    obtain ⟨f, hf, hd⟩ := (problemLasso_gradient beta X 0 m).coord hlen hk2
    rw [hg0] at hd
    -- move the weight by moving its positive part
    obtain ⟨q, hq⟩ : ∃ q, s.wEst.getD (X.cols * X.cols + (i * X.cols + j)) 0 = q := ⟨_, rfl⟩
    have hW : s.wEst.getD (i * X.cols + j) 0 = splitMatrix X.cols s.wEst i j + q := by rw [hsplit _ i hi j hj, hq]; ring
    rw [hW] at hd
    have hd2 := (HasDerivAt.comp_add_const (splitMatrix X.cols s.wEst i j) q hd).sub
      (((hasDerivAt_id (splitMatrix X.cols s.wEst i j)).const_mul beta))
    rw [mul_one, add_sub_cancel_right] at hd2
    obtain ⟨c, hc⟩ : ∃ c, ∀ t, (s.wEst.set (i * X.cols + j) (t + q)).sum = c + t := by
      refine ⟨s.wEst.sum - s.wEst.getD (i * X.cols + j) 0 + q, fun t => ?_⟩
      have hl : i * X.cols + j < s.wEst.length := by rw [hlen]; exact hk2
      have e1 := List.sum_set s.wEst (i * X.cols + j) (t + q)
      have e2 := List.sum_set s.wEst (i * X.cols + j) (s.wEst[i * X.cols + j])
      rw [List.set_getElem_self] at e2
      rw [e1, List.getD_eq_getElem _ _ hl, e2]
      simp only [if_pos hl]
      ring
    have hd3 := hd2.sub_const (beta * c)
    refine hd3.congr_of_eventuallyEq (Filter.Eventually.of_forall fun t => ?_)
    have h1 := hf (t + q)
    rw [(problemLasso_penalised beta X).func] at h1
    have h1 := WithTop.coe_injective h1
    simp only [hc t] at h1
    have e : ∀ a < X.cols, ∀ b < X.cols, splitMatrix X.cols (s.wEst.set (i * X.cols + j) (t + q)) a b =
        withEntry (splitMatrix X.cols s.wEst) i j t a b := by
      intro a ha b hb
      have hab := index_lt ha hb
      unfold withEntry
      rw [hsplit _ a ha b hb, hsplit _ a ha b hb, getD_set _ (by rw [hlen]; exact hk2), getD_set _ (by rw [hlen]; exact hk2),
        if_neg (show ¬ X.cols * X.cols + (a * X.cols + b) = i * X.cols + j by omega)]
      simp only [index_inj hj hb]
      split
      · rename_i hab
        rw [hab.1, hab.2, hq]
        ring
      · rfl
    rw [squaredError_congr X e, show matSplit X.cols (s.wEst.set (i * X.cols + j) (t + q)) =
      fun a b : Fin X.cols => withEntry (splitMatrix X.cols s.wEst) i j t a b by
        funext a b
        exact e a a.2 b b.2] at h1
    unfold dagScore
    simp only [Pi.sub_apply, id_eq]
    rw [← h1]
    ring

end

end Verif.Notears
