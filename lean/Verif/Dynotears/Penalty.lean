import Verif.Dynotears.Optimal
import Verif.Notears.Penalty

/-!
# C130 for dynamic structure learning
-/

namespace Verif.Dynotears

open Verif.Notears Verif.Str Finset

/-- The value, in row `r`, of variable `i`, `k` steps before. -/
noncomputable def lagVal (X Xlags : Data ℝ) (r k i : ℕ) : ℝ := if k = 0 then X.val r i else Xlags.val r ((k - 1) * X.cols + i)

/-- The sum over the rows of the products of variable `i`, `k` steps before, and variable `j`. -/
noncomputable def crossLag (X Xlags : Data ℝ) (k i j : ℕ) : ℝ := ∑ r ∈ range X.rows, lagVal X Xlags r k i * X.val r j

theorem errorDyn_cost (lambdaW lambdaA : ℝ) (X Xlags : Data ℝ) (p : ℕ) (w : ℕ → ℕ → ℕ → ℝ) : errorDyn lambdaW lambdaA X Xlags p w =
    lassoCost (range X.rows) (range X.cols) (range (p + 1) ×ˢ range X.cols) X.rows X.val (fun r m => lagVal X Xlags r m.1 m.2)
      (fun m => if m.1 = 0 then lambdaW else lambdaA) fun m j => w m.1 m.2 j := by
  unfold errorDyn squaredErrorDyn lassoCost
  congr 1
  · congr 1
    refine Finset.sum_congr rfl fun r _ => Finset.sum_congr rfl fun j _ => ?_
    rw [Finset.sum_product, Finset.sum_range_succ']
    simp only [lagVal, if_true, Nat.succ_ne_zero, if_false, Nat.add_sub_cancel]
    ring
  · rw [Finset.sum_product, Finset.sum_range_succ', add_comm]
    simp only [Nat.succ_ne_zero, if_false, if_true, absSum, Finset.mul_sum]

section
variable {minimize : Minimizer ℝ} {fuel : ℕ} {lambdaW lambdaA : ℝ} {X Xlags : Data ℝ} {a : Params ℝ ℕ} {g : Graph Str ℝ} {warned : Bool}

/-- **C130** for `from_numpy_dynamic`: if `lambda_w` is at least the mean product of each two columns between which an edge is permitted, and `lambda_a`
at least the mean product of each column and each earlier column from which an edge is permitted, and the optimiser never returns a point worse than zero,
then no edge is learned. -/
theorem dynotears_empty (hm : RespectsBounds minimize) (h : dynotears minimize fuel lambdaW lambdaA X Xlags a = .ok (g, warned))
    (hmax : a.maxIter ≠ 0) (hlW : 0 < lambdaW) (hlA : 0 < lambdaA)
    (hzero : NotWorse (problem lambdaW lambdaA X Xlags) minimize (bounds a.tabu X.cols (Xlags.cols / X.cols))
      (splitVec X.cols (Xlags.cols / X.cols) fun _ _ _ => 0))
    (hc : ∀ k ≤ Xlags.cols / X.cols, ∀ i < X.cols, ∀ j < X.cols, Permitted a.tabu k i j →
      |crossLag X Xlags k i j| ≤ (if k = 0 then lambdaW else lambdaA) * X.rows) : g.edges = [] := by
  obtain ⟨hS, s, hs, hr⟩ := fromNumpyDynamicW_ok.1 h
  obtain ⟨rfl, rfl⟩ := Prod.mk.inj hr
  have hn : (0 : ℝ) < X.rows := by exact_mod_cast Nat.pos_of_ne_zero hS.1
  have hG := toGraph_dyn (vec := s.wEst) (thr := a.wThreshold) (p := Xlags.cols / X.cols) hS.2.1
  have hbox := learnLoop_inBox hm hs (bounds_zero _ _ _)
  have hm0 : matW X.cols (splitVec X.cols (Xlags.cols / X.cols) fun _ _ _ => 0) = fun _ _ : Fin X.cols => 0 := by
    funext i j
    rw [matW_eq]
    exact (splitVec_weight _ _ _ (Nat.zero_le _) i.2 j.2).1
  have hbest := learnLoop_best (problem_penalised lambdaW lambdaA hS) hm hs hmax (bounds_zero _ _ _)
    (by rw [hm0]; exact (expScore_eq_zero_iff _).2 (acyclic_zero _)) hzero
  rw [squaredErrorDyn_congr X Xlags _ (v := weightOf X.cols (splitVec X.cols (Xlags.cols / X.cols) fun _ _ _ => 0)) (w := fun _ _ _ => 0) fun k hk i hi j hj => (splitVec_weight _ _ _ hk hi hj).1, (splitVec_sums _ _ _).1,
    (splitVec_sums _ _ _).2] at hbest
  obtain ⟨p1, p2⟩ := penalty_le hbox
  have q1 := mul_le_mul_of_nonneg_left p1 hlW.le
  have q2 := mul_le_mul_of_nonneg_left p2 hlA.le
  have hle : errorDyn lambdaW lambdaA X Xlags (Xlags.cols / X.cols) (weightOf X.cols s.wEst) ≤
      errorDyn lambdaW lambdaA X Xlags (Xlags.cols / X.cols) fun _ _ _ => 0 := by
    unfold errorDyn
    linarith
  rw [errorDyn_cost, errorDyn_cost] at hle
  have hW := lasso_zero_best hn (fun m _ => by split <;> assumption) (fun m hm j hj hne => by
    obtain ⟨h1, h2⟩ := Finset.mem_product.1 hm
    rw [Finset.mem_range] at h1 h2 hj
    exact hc m.1 (by omega) m.2 h2 j hj (by
      by_contra hp
      exact hne (weightOf_forbidden hbox (by omega) h2 hj hp))) hle
  refine List.eq_nil_iff_forall_not_mem.2 fun e he => ?_
  obtain ⟨k, i, j, u, v, hk, hi, hj, hne, -⟩ := (hG.edges e).1 he
  have hi' := (List.getElem?_eq_some_iff.1 hi).1
  have hj' := (List.getElem?_eq_some_iff.1 hj).1
  rw [List.length_map, List.length_range] at hi' hj'
  exact hne (hW (k, i) (Finset.mem_product.2 ⟨Finset.mem_range.2 (by omega), Finset.mem_range.2 hi'⟩) j (Finset.mem_range.2 hj'))

/-- **C130** for `from_numpy_dynamic`: with an optimiser that finds minima and no threshold, the learned graph is empty exactly if the penalties are at
least the mean products of the columns between which an edge is permitted. -/
theorem dynotears_empty_iff (hm : RespectsBounds minimize) (h : dynotears minimize fuel lambdaW lambdaA X Xlags a = .ok (g, warned))
    (hmax : a.maxIter ≠ 0) (hlW : 0 < lambdaW) (hlA : 0 < lambdaA)
    (hopt : FindsMinima (problem lambdaW lambdaA X Xlags) minimize (bounds a.tabu X.cols (Xlags.cols / X.cols))) (hthr : a.wThreshold = 0) :
    g.edges = [] ↔ ∀ k ≤ Xlags.cols / X.cols, ∀ i < X.cols, ∀ j < X.cols, Permitted a.tabu k i j →
      |crossLag X Xlags k i j| ≤ (if k = 0 then lambdaW else lambdaA) * X.rows := by
  have hbox0 := splitVec_box (t := a.tabu) (d := X.cols) (p := Xlags.cols / X.cols) (w := fun _ _ _ => 0) fun _ _ _ _ _ _ h => absurd rfl h
  refine ⟨fun hg k hk i hi j hj hp => ?_, dynotears_empty hm h hmax hlW hlA (hopt _ hbox0)⟩
  by_contra hcon
  obtain ⟨hS, -⟩ := fromNumpyDynamicW_ok.1 h
  have hn : (0 : ℝ) < X.rows := by exact_mod_cast Nat.pos_of_ne_zero hS.1
  obtain ⟨w, hG, hmin⟩ := dynotears_minimum hm h hmax hlW.le hlA.le hopt
  have hw : ∀ k ≤ Xlags.cols / X.cols, ∀ i < X.cols, ∀ j < X.cols, w k i j = 0 := by
    intro k hk i hi j hj
    by_contra hne
    have hname : ∀ m < X.cols, ((List.range X.cols).map natStr)[m]? = some (natStr m) := by
      intro m hm
      rw [List.getElem?_map, List.getElem?_range hm]
      rfl
    have := (hG.edges _).2 ⟨k, i, j, _, _, hk, hname i hi, hname j hj, hne, by rw [hthr]; exact abs_nonneg _, rfl⟩
    rw [hg] at this
    cases this
  have hm' : (k, i) ∈ range (Xlags.cols / X.cols + 1) ×ˢ range X.cols := Finset.mem_product.2 ⟨Finset.mem_range.2 (by omega), Finset.mem_range.2 hi⟩
  obtain ⟨c, hlt⟩ := lasso_single_better (R := range X.rows) (J := range X.cols) (y := X.val) (z := fun r (m : ℕ × ℕ) => lagVal X Xlags r m.1 m.2)
    (pen := fun m => if m.1 = 0 then lambdaW else lambdaA) hn hm' (Finset.mem_range.2 hj) (not_le.1 hcon)
  have e1 := errorDyn_cost lambdaW lambdaA X Xlags (Xlags.cols / X.cols) fun k' i' j' => if (k', i') = (k, i) ∧ j' = j then c else 0
  have e2 := errorDyn_cost lambdaW lambdaA X Xlags (Xlags.cols / X.cols) fun _ _ _ => 0
  have h1 := hmin (fun k' i' j' => if (k', i') = (k, i) ∧ j' = j then c else 0) (by
    by_cases hk0 : k = 0
    · have := acyclic_single (d := X.cols) (hp.1 hk0) c
      simpa only [Prod.mk.injEq, hk0, true_and] using this
    · have : (fun i' j' => if ((0 : ℕ), i') = (k, i) ∧ j' = j then c else 0) = fun _ _ : ℕ => (0 : ℝ) := by
        funext i' j'
        exact if_neg fun h => hk0 (Prod.mk.inj h.1).1.symm
      rw [this]
      exact acyclic_zero _) fun k' _ i' _ j' _ hne => by
    have : (k', i') = (k, i) ∧ j' = j := by by_contra hc; exact hne (if_neg hc)
    obtain ⟨h1, h2⟩ := this
    obtain ⟨rfl, rfl⟩ := Prod.mk.inj h1
    subst h2
    exact hp
  have h2 : errorDyn lambdaW lambdaA X Xlags (Xlags.cols / X.cols) w = errorDyn lambdaW lambdaA X Xlags (Xlags.cols / X.cols) fun _ _ _ => 0 := by
    unfold errorDyn absSum
    rw [squaredErrorDyn_congr X Xlags _ hw]
    congr 2
    · congr 1
      refine Finset.sum_congr rfl fun i hi => Finset.sum_congr rfl fun j hj => ?_
      rw [hw 0 (by omega) i (Finset.mem_range.1 hi) j (Finset.mem_range.1 hj)]
    · congr 1
      refine Finset.sum_congr rfl fun k hk => Finset.sum_congr rfl fun i hi => Finset.sum_congr rfl fun j hj => ?_
      rw [hw (k + 1) (by have := Finset.mem_range.1 hk; omega) i (Finset.mem_range.1 hi) j (Finset.mem_range.1 hj)]
  rw [h2, e1, e2] at h1
  exact absurd hlt (not_lt.2 h1)

end

end Verif.Dynotears
