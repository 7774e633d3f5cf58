import Verif.Notears.PropsObjective

/-!
# Concrete cases for the theorems on the objective of NOTEARS
-/

namespace Verif.Notears.Witness

open Matrix

/-- An optimiser that returns `w` if it is within the bounds, else stays. -/
noncomputable def jump (w : List ℝ) : Minimizer ℝ := fun _ _ _ s bnds =>
  open Classical in if InBox bnds w then w else s

theorem jump_respects (w : List ℝ) : RespectsBounds (jump w) := by
  intro k f g s bnds h
  unfold jump
  split
  · assumption
  · exact h

theorem jump_loop {P : Problem ℝ} {w : List ℝ} {bnds : List (Bound ℝ)} (hb : InBox bnds w) {x : ℝ}
    (hx : P.score w = (x : WithTop ℝ)) (n : ℕ) (hTol : ℝ) :
    ∃ s, learnLoop P (jump w) bnds n 1 hTol 1 = some s ∧ s.wEst = w ∧ s.warned = decide (¬ x ≤ hTol) := by
  have h1 : ∀ k f g s, jump w k f g s bnds = w := fun _ _ _ _ => by unfold jump; rw [if_pos hb]
  have hq : quarter (⊤ : WithTop ℝ) = ⊤ := rfl
  have hin : inner P (jump w) bnds 1 (initSt n) =
      some { (initSt n : St ℝ) with wNew := w, hNew := x, calls := 1 } := by
    unfold inner
    rw [if_pos ⟨one_lt_limit, Or.inr rfl⟩]
    simp only [h1, hx]
    unfold inner
    simp only [initSt, hq, not_top_lt, if_false]
    rw [if_neg]
    · simp
  unfold learnLoop
  rw [outer, hin]
  simp only [WithTop.coe_le_coe]
  by_cases h : x ≤ hTol
  · rw [if_pos h]
    exact ⟨_, rfl, rfl, by simp [initSt, h]⟩
  · rw [if_neg h]
    exact ⟨_, rfl, rfl, by simp [h]⟩

/-- Two columns, one row. -/
noncomputable def data2 : Data ℝ := ⟨1, 2, fun _ _ => some 1⟩

theorem data2_finite : data2.finite = true := by simp [Data.finite, data2]

theorem box2 (a b : ℝ) : InBox ((cells data2.cols).map (bound ({} : Tabu ℕ) (none, none))) [0, a, b, 0] := by
  have : (cells data2.cols).map (bound ({} : Tabu ℕ) ((none, none) : Bound ℝ)) =
      [(some 0, some 0), (none, none), (none, none), (some 0, some 0)] := by
    simp [cells, data2, List.range_succ, bound]
  rw [this]
  simp [InBox]

theorem notears_jump (a b hTol thr : ℝ) :
    ∃ g, notears (jump [0, a, b, 0]) 1 data2 ⟨1, hTol, thr, {}⟩ = .ok g ∧
      (fromNumpyWarns (problem data2) (jump [0, a, b, 0]) 1 data2 ⟨1, hTol, thr, {}⟩ =
        decide (¬ expScore (mat 2 [0, a, b, 0]) ≤ hTol)) ∧
      g = ofMatrix 2 (reshape 2 ([0, a, b, 0].map (cutPlain thr))) := by
  obtain ⟨s, hs, hw, hwarn⟩ := jump_loop (P := problem data2) (box2 a b)
    (x := expScore (mat 2 [0, a, b, 0])) rfl (data2.cols * data2.cols) hTol
  refine ⟨_, fromNumpy_ok.2 ⟨data2_finite, by decide, s, hs, rfl⟩, ?_, ?_⟩
  · unfold fromNumpyWarns
    rw [← hwarn]
    simp only
    rw [hs]
  · rw [hw]
    rfl

/-- The hypotheses of `notears_acyclic` are met by a case where an edge is learned. -/
example : ∃ g, notears (jump [0, 1, 0, 0]) 1 data2 ⟨1, 1 / 16, 1 / 2, {}⟩ = .ok g ∧ g.edges ≠ [] ∧ g.Acyclic := by
  obtain ⟨g, hg, hw, hgr⟩ := notears_jump 1 0 (1 / 16) (1 / 2)
  refine ⟨g, hg, ?_, ?_⟩
  · rw [hgr]
    intro h
    have : (⟨0, 1, 1, "unknown"⟩ : Edge ℕ ℝ) ∈ (ofMatrix 2 (reshape 2 ([0, 1, 0, 0].map (cutPlain (1 / 2))))).edges := by
      rw [mem_ofMatrix]
      have : cutPlain (1 / 2 : ℝ) 1 = 1 := by
        unfold cutPlain
        rw [if_neg]
        norm_num
      simp only [one_div] at this ⊢
      simp [reshape, this]
    rw [h] at this
    simp at this
  · refine notears_acyclic hg (by simp) ?_ (by norm_num) ?_
    · rw [hw]
      have : expScore (mat 2 [0, 1, 0, 0]) = 0 := by
        rw [expScore_eq_zero_iff]
        have key : ∀ i j : Fin 2, Relation.TransGen (fun a b => mat 2 [0, 1, 0, 0] a b ≠ 0) i j → i < j := by
          intro i j h
          induction h with
          | single h => revert h; rename_i b; fin_cases i <;> fin_cases b <;> simp [mat, reshape]
          | tail _ h ih =>
            rename_i b c _
            refine lt_trans ih ?_
            revert h; fin_cases b <;> fin_cases c <;> simp [mat, reshape]
        intro i hi
        exact lt_irrefl _ (key i i hi)
      rw [this]
      norm_num
    · intro k h1 h2
      have h2 : k ≤ 2 := h2
      interval_cases k <;> norm_num

/-- Without a threshold suitable for the tolerance the graph learned without a warning can have a cycle:
for every `h_tol` allowing a score at all, `w_threshold = 0` is not enough. -/
theorem notears_cyclic : ∃ (minimize : Minimizer ℝ) (X : Data ℝ) (a : Params ℝ ℕ) (g : Graph ℕ ℝ),
    RespectsBounds minimize ∧ 0 < a.hTol ∧ a.wThreshold = 0 ∧ a.maxIter ≠ 0 ∧
    notears minimize 1 X a = .ok g ∧ fromNumpyWarns (problem X) minimize 1 X a = false ∧ ¬ g.Acyclic := by
  have hcyc : ¬ NoCycle (mat 2 [0, 1, 1, 0]) := by
    intro h
    refine h 0 (Relation.TransGen.tail (b := 1) (.single ?_) ?_) <;> simp [mat, reshape]
  have hpos : 0 < expScore (mat 2 [0, 1, 1, 0]) :=
    lt_of_le_of_ne (expScore_nonneg _) fun h => hcyc ((expScore_eq_zero_iff _).1 h.symm)
  obtain ⟨g, hg, hw, hgr⟩ := notears_jump 1 1 (expScore (mat 2 [0, 1, 1, 0])) 0
  refine ⟨_, _, _, g, jump_respects _, hpos, rfl, by simp, hg, ?_, ?_⟩
  · rw [hw]
    simp
  · intro h
    have hcut : cutPlain (0 : ℝ) 1 = 1 := by
      unfold cutPlain
      rw [if_neg]
      norm_num
    refine h 0 (Relation.TransGen.tail (b := 1) (.single ⟨⟨0, 1, 1, "unknown"⟩, ?_, rfl, rfl⟩)
      ⟨⟨1, 0, 1, "unknown"⟩, ?_, rfl, rfl⟩) <;> rw [hgr, mem_ofMatrix] <;> simp [reshape, hcut]

end Verif.Notears.Witness
