import Verif.Dynotears.Optimal
import Verif.Notears.PropsMultiplier

/-!
# C87 for dynamic structure learning
-/

namespace Verif.Dynotears

open Verif.Notears Verif.Str Matrix Finset

/-! ### Specification -/

/-- The weights with that of the edge of lag `k` from `i` to `j` replaced. -/
def withLag (w : ℕ → ℕ → ℕ → ℝ) (k i j : ℕ) (t : ℝ) : ℕ → ℕ → ℕ → ℝ := fun l a b => if l = k ∧ a = i ∧ b = j then t else w l a b

/-! ### The gradient -/

theorem problem_rule (lambdaW lambdaA : ℝ) (X Xlags : Data ℝ) :
    MultiplierRule (problem lambdaW lambdaA X Xlags) fun vec => expScore (matW X.cols vec) where
  grad rho alpha vec := by
    rw [problem_grad_eq, problem_grad_eq]
    congr 2
    unfold objGradW expScore
    simp only [Fintype.card_fin, zero_mul, zero_add]
    rw [add_comm alpha]
  score w := rfl
  nonneg w := expScore_nonneg _

/-- The entries of the gradient for the two parts of a weight. -/
theorem grad_parts (lambdaW lambdaA : ℝ) {X Xlags : Data ℝ} (hS : Shapes X Xlags) (m : ℝ) (vec : List ℝ) {k i j : ℕ}
    (hk : k ≤ Xlags.cols / X.cols) (hi : i < X.cols) (hj : j < X.cols) :
    ∃ D, ((problem lambdaW lambdaA X Xlags).grad 0 m vec).getD ((2 * k + 0) * X.cols ^ 2 + i * X.cols + j) 0 =
        D + (if k = 0 then lambdaW else lambdaA) ∧
      ((problem lambdaW lambdaA X Xlags).grad 0 m vec).getD ((2 * k + 1) * X.cols ^ 2 + i * X.cols + j) 0 =
        -D + (if k = 0 then lambdaW else lambdaA) := by
  obtain ⟨-, hd, -, -, p, hp⟩ := hS
  have hdp : Xlags.cols / X.cols = p := by rw [hp]; exact Nat.mul_div_cancel_left p (by omega)
  have hc := cell_lt' hi hj
  rw [hdp] at hk
  rw [problem_grad_eq, hdp]
  have hw : (flat (objGradW X.matrix (fun i j => (Xlags.entry i j).getD 0) 0 m (matW X.cols vec)
      (matA X.cols Xlags.cols vec))).length = X.cols ^ 2 := by rw [flat_length, sq]
  have ha : (flat (objGradA X.matrix (fun i j => (Xlags.entry i j).getD 0) (matW X.cols vec)
      (matA X.cols Xlags.cols vec))).length = p * X.cols ^ 2 := by rw [flat_length, hp]; ring
  rcases k with _ | q
  · have h0 := gradVec_zero (lw := lambdaW) (la := lambdaA) (p := p) (ga := flat (objGradA X.matrix
      (fun i j => (Xlags.entry i j).getD 0) (matW X.cols vec) (matA X.cols Xlags.cols vec))) hw hc
    have h1 := gradVec_one (lw := lambdaW) (la := lambdaA) (p := p) (ga := flat (objGradA X.matrix
      (fun i j => (Xlags.entry i j).getD 0) (matW X.cols vec) (matA X.cols Xlags.cols vec))) hw hc
    rw [show (2 * 0 + 0) * X.cols ^ 2 + i * X.cols + j = i * X.cols + j by ring,
      show (2 * 0 + 1) * X.cols ^ 2 + i * X.cols + j = X.cols ^ 2 + (i * X.cols + j) by ring, if_pos rfl]
    exact ⟨_, h0, h1⟩
  · have h := gradVec_succ (lw := lambdaW) (la := lambdaA) hw ha (q := q) (by omega) hc
    rw [show (2 * (q + 1) + 0) * X.cols ^ 2 + i * X.cols + j = 2 * (q + 1) * X.cols ^ 2 + (i * X.cols + j) by ring,
      show (2 * (q + 1) + 1) * X.cols ^ 2 + i * X.cols + j = (2 * (q + 1) + 1) * X.cols ^ 2 + (i * X.cols + j) by ring,
      if_neg (Nat.succ_ne_zero q)]
    exact ⟨_, h.1, h.2⟩

theorem part_index_inj {d s s' k k' i j a b : ℕ} (hs : s < 2) (hs' : s' < 2) (hi : i < d) (hj : j < d) (ha : a < d) (hb : b < d) :
    (2 * k' + s') * d ^ 2 + a * d + b = (2 * k + s) * d ^ 2 + i * d + j ↔ s' = s ∧ k' = k ∧ a = i ∧ b = j := by
  constructor
  · intro h
    have h1 := cell_lt' hi hj
    have h2 := cell_lt' ha hb
    have hpos : 0 < d ^ 2 := pow_pos (by omega) 2
    rw [Nat.add_assoc, Nat.add_assoc] at h
    have e1 : ((2 * k' + s') * d ^ 2 + (a * d + b)) / d ^ 2 = ((2 * k + s) * d ^ 2 + (i * d + j)) / d ^ 2 := by rw [h]
    rw [Nat.add_comm, Nat.add_mul_div_right _ _ hpos, Nat.div_eq_of_lt h2, Nat.add_comm (_ * d ^ 2), Nat.add_mul_div_right _ _ hpos,
      Nat.div_eq_of_lt h1] at e1
    have e2 : 2 * k' + s' = 2 * k + s := by omega
    rw [e2] at h
    have := (index_inj hj hb).1 (Nat.add_left_cancel h)
    omega
  · rintro ⟨rfl, rfl, rfl, rfl⟩; rfl

section
variable {minimize : Minimizer ℝ} {fuel : ℕ} {lambdaW lambdaA : ℝ} {X Xlags : Data ℝ} {a : Params ℝ ℕ} {g : Graph Str ℝ} {warned : Bool}

/-- **C87** for `from_numpy_dynamic`: if every call of the optimiser ends at a stationary point within the bounds, the graph is that of
weights at which, for one multiplier `m ≥ 0`, the derivative `D` of squared error plus `m` times acyclicity score (of the weights of lag
0) in the weight of every permitted edge is between `-lambda` and `lambda`, is `-lambda` if the weight is positive and `lambda` if it is
negative; `lambda` is `lambda_w` for lag 0 and `lambda_a` for the other lags. -/
theorem dynotears_stationary (hm : RespectsBounds minimize) (h : dynotears minimize fuel lambdaW lambdaA X Xlags a = .ok (g, warned))
    (hmax : a.maxIter ≠ 0)
    (hopt : FindsStationary (problem lambdaW lambdaA X Xlags) minimize (bounds a.tabu X.cols (Xlags.cols / X.cols))) :
    ∃ (w : ℕ → ℕ → ℕ → ℝ) (m : ℝ),
      IsDynGraph ((List.range X.cols).map natStr) (Xlags.cols / X.cols) w a.wThreshold "unknown" g ∧ 0 ≤ m ∧
      (∀ k ≤ Xlags.cols / X.cols, ∀ i < X.cols, ∀ j < X.cols, ¬ Permitted a.tabu k i j → w k i j = 0) ∧
      ∀ k ≤ Xlags.cols / X.cols, ∀ i < X.cols, ∀ j < X.cols, Permitted a.tabu k i j → ∃ D,
        HasDerivAt (fun t => squaredErrorDyn X Xlags (Xlags.cols / X.cols) (withLag w k i j t) +
          m * dagScore X.cols (withLag w k i j t 0)) D (w k i j) ∧
        |D| ≤ (if k = 0 then lambdaW else lambdaA) ∧ (0 < w k i j → D = -(if k = 0 then lambdaW else lambdaA)) ∧
        (w k i j < 0 → D = if k = 0 then lambdaW else lambdaA) := by
  obtain ⟨hS, s, hs, hr⟩ := fromNumpyDynamicW_ok.1 h
  obtain ⟨rfl, rfl⟩ := Prod.mk.inj hr
  obtain ⟨m, hm0, hst, -⟩ := learnLoop_stationary (problem_rule lambdaW lambdaA X Xlags) hm hopt hs hmax (bounds_zero _ _ _)
  have hbox : InBox (bounds a.tabu X.cols (Xlags.cols / X.cols)) s.wEst := learnLoop_inBox hm hs (bounds_zero _ _ _)
  have hlen := box_length hbox
  refine ⟨weightOf X.cols s.wEst, m, toGraph_dyn hS.2.1 _ _, hm0, ?_, ?_⟩
  · intro k hk i hi j hj hp
    have key : ∀ s' < 2, part X.cols s.wEst s' k i j = 0 := by
      intro s' hs'
      have h0 := inBox_getD hbox (bounds_get s' hs' hk hi hj)
      have : (if k = 0 then boundW a.tabu (i, j) else boundA a.tabu k (i, j) : Bound ℝ) = (some 0, some 0) := by
        split
        · rename_i h0; subst h0; exact boundW_zero hp
        · rename_i h0; exact boundA_zero h0 hp
      rw [this] at h0
      exact le_antisymm (h0.2 0 rfl) (h0.1 0 rfl)
    rw [weightOf_part, key 0 (by omega), key 1 (by omega), sub_zero]
  · intro k hk i hi j hj hp
    obtain ⟨D, hg0, hg1⟩ := grad_parts lambdaW lambdaA hS m s.wEst hk hi hj
    obtain ⟨lam, hlam⟩ : ∃ lam, (if k = 0 then lambdaW else lambdaA) = lam := ⟨_, rfl⟩
    rw [hlam] at hg0 hg1 ⊢
    have hfree : (if k = 0 then boundW a.tabu (i, j) else boundA a.tabu k (i, j) : Bound ℝ) = (some 0, none) := by
      split
      · rename_i h0; subst h0; exact boundW_free hp
      · exact boundA_free hp
    have hp0 := bounds_get (K := ℝ) (t := a.tabu) 0 (by omega) hk hi hj
    have hp1 := bounds_get (K := ℝ) (t := a.tabu) 1 (by omega) hk hi hj
    rw [hfree] at hp0 hp1
    refine ⟨D, ?_, split_stationary hbox hst hp0 hp1 hg0 hg1⟩
    obtain ⟨I, hI⟩ : ∃ I, (2 * k + 0) * X.cols ^ 2 + i * X.cols + j = I := ⟨_, rfl⟩
    have hIlt : I < 2 * (Xlags.cols / X.cols + 1) * X.cols ^ 2 := by
      obtain ⟨hlt, -⟩ := List.getElem?_eq_some_iff.1 hp0
      rw [bounds_length] at hlt
      omega
    have hIl : I < s.wEst.length := by rw [hlen]; exact hIlt
    rw [hI] at hg0
    obtain ⟨f, hf, hd⟩ := (problem_gradient lambdaW lambdaA hS 0 m).coord hlen hIlt
    rw [hg0] at hd
    obtain ⟨q, hq⟩ : ∃ q, part X.cols s.wEst 1 k i j = q := ⟨_, rfl⟩
    have hW : s.wEst.getD I 0 = weightOf X.cols s.wEst k i j + q := by
      rw [weightOf_part, hq, part, hI]; ring
    rw [hW] at hd
    have hd2 := (HasDerivAt.comp_add_const (weightOf X.cols s.wEst k i j) q hd).sub
      (((hasDerivAt_id (weightOf X.cols s.wEst k i j)).const_mul lam))
    rw [mul_one, add_sub_cancel_right] at hd2
    have hlenSet : ∀ t, (s.wEst.set I t).length = 2 * (Xlags.cols / X.cols + 1) * X.cols ^ 2 := by
      intro t; rw [List.length_set, hlen]
    -- the penalties are affine in the positive part
    have hsum : ∀ t, (s.wEst.set I t).sum = s.wEst.sum - s.wEst.getD I 0 + t := by
      intro t
      have e1 := List.sum_set s.wEst I t
      have e2 := List.sum_set s.wEst I s.wEst[I]
      rw [List.set_getElem_self] at e2
      rw [e1, List.getD_eq_getElem _ _ hIl, e2]
      simp only [if_pos hIl]
      ring
    obtain ⟨c, hc⟩ : ∃ c, ∀ t, lambdaW * ((s.wEst.set I (t + q)).take (2 * X.cols ^ 2)).sum +
        lambdaA * ((s.wEst.set I (t + q)).drop (2 * X.cols ^ 2)).sum = c + lam * t := by
      have hsplit : ∀ l : List ℝ, l.sum = (l.take (2 * X.cols ^ 2)).sum + (l.drop (2 * X.cols ^ 2)).sum := by
        intro l
        rw [← List.sum_append, List.take_append_drop]
      have hcell := cell_lt' hi hj
      by_cases h0 : k = 0
      · rw [if_pos h0] at hlam
        subst hlam
        have hlt : I < 2 * X.cols ^ 2 := by rw [← hI, h0]; omega
        refine ⟨lambdaW * (s.wEst.sum - s.wEst.getD I 0 + q - (s.wEst.drop (2 * X.cols ^ 2)).sum) +
          lambdaA * (s.wEst.drop (2 * X.cols ^ 2)).sum, fun t => ?_⟩
        have h1 := hsplit (s.wEst.set I (t + q))
        rw [hsum, List.drop_set_of_lt hlt] at h1
        rw [List.drop_set_of_lt hlt]
        have : ((s.wEst.set I (t + q)).take (2 * X.cols ^ 2)).sum =
          s.wEst.sum - s.wEst.getD I 0 + (t + q) - (s.wEst.drop (2 * X.cols ^ 2)).sum := by linarith
        rw [this]
        ring
      · rw [if_neg h0] at hlam
        subst hlam
        have hge : 2 * X.cols ^ 2 ≤ I := by
          rw [← hI]
          have : 2 * X.cols ^ 2 ≤ (2 * k + 0) * X.cols ^ 2 := Nat.mul_le_mul_right _ (by omega)
          omega
        refine ⟨lambdaW * (s.wEst.take (2 * X.cols ^ 2)).sum +
          lambdaA * (s.wEst.sum - s.wEst.getD I 0 + q - (s.wEst.take (2 * X.cols ^ 2)).sum), fun t => ?_⟩
        have h1 := hsplit (s.wEst.set I (t + q))
        rw [hsum, List.take_set_of_le hge] at h1
        rw [List.take_set_of_le hge]
        have : ((s.wEst.set I (t + q)).drop (2 * X.cols ^ 2)).sum =
          s.wEst.sum - s.wEst.getD I 0 + (t + q) - (s.wEst.take (2 * X.cols ^ 2)).sum := by linarith
        rw [this]
        ring
    have hd3 := hd2.sub_const c
    refine hd3.congr_of_eventuallyEq (Filter.Eventually.of_forall fun t => ?_)
    have h1 := hf (t + q)
    rw [(problem_penalised lambdaW lambdaA hS).func] at h1
    have h1 := WithTop.coe_injective h1
    simp only [hc t] at h1
    have e : ∀ l ≤ Xlags.cols / X.cols, ∀ a < X.cols, ∀ b < X.cols, weightOf X.cols (s.wEst.set I (t + q)) l a b =
        withLag (weightOf X.cols s.wEst) k i j t l a b := by
      intro l hl a ha b hb
      unfold withLag
      have hpart : ∀ s' < 2, part X.cols (s.wEst.set I (t + q)) s' l a b =
          if s' = 0 ∧ l = k ∧ a = i ∧ b = j then t + q else part X.cols s.wEst s' l a b := by
        intro s' hs'
        unfold part
        rw [getD_set _ hIl]
        simp only [← hI, part_index_inj (by omega : 0 < 2) hs' hi hj ha hb]
      rw [weightOf_part, hpart 0 (by omega), hpart 1 (by omega)]
      by_cases hx : l = k ∧ a = i ∧ b = j
      · obtain ⟨rfl, rfl, rfl⟩ := hx
        simp [hq]
      · simp only [hx, and_false, if_false, weightOf_part]
    rw [squaredErrorDyn_congr X Xlags _ e, show matW X.cols (s.wEst.set I (t + q)) =
      fun a b : Fin X.cols => withLag (weightOf X.cols s.wEst) k i j t 0 a b by
        funext a b
        rw [matW_eq]
        exact e 0 (Nat.zero_le _) a a.2 b b.2] at h1
    unfold dagScore
    simp only [Pi.sub_apply, id_eq]
    rw [← h1]
    ring

end

end Verif.Dynotears
