import Verif.Recover.DynStream
import Verif.Recover.DynGenerated
import Verif.Recover.Witness

/-!
# Concrete cases for C138
-/

namespace Verif.Recover.DynWitness

open MeasureTheory ProbabilityTheory Verif.Notears Verif.Dynotears Verif.Generators Verif.Str

/-- Two variables and one lag: variable 0 has an effect on variable 1 at once, variable 1 has one on variable 0 a step later. -/
noncomputable def loop : Graph Str ℝ := ⟨[lagName ['0'] 0, lagName ['0'] 1, lagName ['1'] 0, lagName ['1'] 1],
  [⟨lagName ['0'] 0, lagName ['1'] 0, 1 / 2, "unknown"⟩, ⟨lagName ['1'] 1, lagName ['0'] 0, 1 / 4, "unknown"⟩]⟩

theorem loop_intra : intraNodes loop = [lagName ['0'] 0, lagName ['1'] 0] := by decide +kernel

theorem loop_inter : interNodes loop = [lagName ['0'] 1, lagName ['1'] 1] := by decide +kernel

theorem loop_nodup : loop.nodes.Nodup := by decide +kernel

theorem loop_length : (intraNodes loop).length = 2 := by rw [loop_intra]; rfl

theorem loop_lags : (interNodes loop).length = 1 * (intraNodes loop).length := by rw [loop_intra, loop_inter]; rfl

theorem loop_weightIn (a b : Str) : weightIn loop a b = if lagName ['0'] 0 = a ∧ lagName ['1'] 0 = b then 1 / 2
    else if lagName ['1'] 1 = a ∧ lagName ['0'] 0 = b then 1 / 4 else 0 := by
  unfold weightIn
  simp only [loop, List.find?_cons, List.find?_nil]
  by_cases h1 : lagName ['0'] 0 = a ∧ lagName ['1'] 0 = b
  · rw [if_pos h1]
    simp only [h1.1, h1.2, and_self, decide_true]
  · rw [if_neg h1, decide_eq_false h1]
    by_cases h2 : lagName ['1'] 1 = a ∧ lagName ['0'] 0 = b
    · rw [if_pos h2, decide_eq_true h2]
    · rw [if_neg h2, decide_eq_false h2]

theorem loop_weights : ∀ k ≤ 1, ∀ i < 2, ∀ j < 2, dynWeights loop k i j =
    if k = 0 ∧ i = 0 ∧ j = 1 then 1 / 2 else if k = 1 ∧ i = 1 ∧ j = 0 then 1 / 4 else 0 := by
  intro k hk i hi j hj
  have h00 : lagName ['0'] 0 = ['0', '_', 'l', 'a', 'g', '0'] := by decide +kernel
  have h01 : lagName ['0'] 1 = ['0', '_', 'l', 'a', 'g', '1'] := by decide +kernel
  have h10 : lagName ['1'] 0 = ['1', '_', 'l', 'a', 'g', '0'] := by decide +kernel
  have h11 : lagName ['1'] 1 = ['1', '_', 'l', 'a', 'g', '1'] := by decide +kernel
  interval_cases k <;> interval_cases i <;> interval_cases j <;>
    simp [dynWeights, loop_intra, loop_inter, loop_weightIn, h00, h01, h10, h11]

theorem loop_now (i j : Fin (intraNodes loop).length) : dynWeights loop 0 i j ≠ 0 → i.1 < j.1 := by
  have hi : i.1 < 2 := i.2.trans_eq loop_length
  have hj : j.1 < 2 := j.2.trans_eq loop_length
  rw [loop_weights 0 (by omega) i hi j hj]
  intro h
  by_contra hc
  refine h ?_
  rw [if_neg (by omega), if_neg (by omega)]

theorem loop_acyclic : AcyclicWeights (intraNodes loop).length (dynWeights loop 0) := by
  intro i hc
  have : ∀ a b : Fin (intraNodes loop).length, Relation.TransGen (fun a b : Fin (intraNodes loop).length => dynWeights loop 0 a b ≠ 0) a b → a.1 < b.1 := by
    intro a b hab
    induction hab with
    | single h => exact loop_now _ _ h
    | tail _ h ih => exact ih.trans (loop_now _ _ h)
  exact lt_irrefl _ (this i i hc)

theorem loop_stable : Stable (intraNodes loop).length 1 (dynWeights loop) (fun _ => 1) (1 / 2) where
  scale _ := one_pos
  pos := by norm_num
  less := by norm_num
  sum j := by
    have hj : j.1 < 2 := j.2.trans_eq loop_length
    have h1 : ∀ k, ∑ i : Fin (intraNodes loop).length, (1 : ℝ) * |dynWeights loop k i j| = ∑ i ∈ Finset.range 2, |dynWeights loop k i j| := by
      intro k
      rw [← loop_length, Finset.sum_range]
      simp
    simp only [h1, Finset.sum_range_succ, Finset.sum_range_zero]
    rw [loop_weights 0 (by omega) 0 (by omega) j hj, loop_weights 0 (by omega) 1 (by omega) j hj, loop_weights 1 (by omega) 0 (by omega) j hj,
      loop_weights 1 (by omega) 1 (by omega) j hj]
    generalize j.1 = m at hj
    interval_cases m <;> norm_num

/-- Independent standard normal numbers, one for every time and variable. -/
noncomputable def normals : Measure (ℕ × Fin (intraNodes loop).length → ℝ) := Measure.infinitePi fun _ => gaussianReal 0 1

/-- The noise that is made of these numbers. -/
noncomputable def noise (ω : ℕ × Fin (intraNodes loop).length → ℝ) (t j : ℕ) : ℝ :=
  if h : j < (intraNodes loop).length then ω (t, ⟨j, h⟩) else 0

theorem noise_iid : Iid normals (gaussianReal 0 1) (fun (q : ℕ × Fin (intraNodes loop).length) ω => noise ω q.1 q.2) := by
  have h : (fun (q : ℕ × Fin (intraNodes loop).length) ω => noise ω q.1 q.2) = fun q ω => ω q := by
    funext q ω
    simp [noise]
  rw [h]
  refine ⟨fun q => measurable_pi_apply q, ?_, fun q => Measure.infinitePi_map_eval _ q⟩
  exact iIndepFun_infinitePi (P := fun _ : ℕ × Fin (intraNodes loop).length => gaussianReal 0 1) (X := fun _ x => x) fun _ => measurable_id

/-- There is a topological order. -/
theorem loop_order : ∃ order, IsTopo (List.range (intraNodes loop).length) (intraEdges (intraNodes loop).length (dynWeights loop 0)) order :=
  exists_topo List.nodup_range (by
    rintro ⟨i, j⟩ he
    rw [intraEdges, List.mem_filter] at he
    simpa using mem_cells.1 he.1) (intraEdges_acyclic loop_acyclic)

/-- With standard normal noise: the probability that DYNOTEARS does not learn the graph from `n` generated rows is at most `c / n`. -/
theorem loop_example {ε : ℝ} (hε : 0 < ε) {order : List ℕ}
    (ho : IsTopo (List.range (intraNodes loop).length) (intraEdges (intraNodes loop).length (dynWeights loop 0)) order) :
    ∃ δ > 0, ∃ c : ℝ, ∀ n burnIn : ℕ, 0 < n →
    normals {ω | ¬ ∃ F, generateDataframe loop n burnIn "linear-gauss" none (noise ω) order = .ok F ∧
      LearnsDyn (intraNodes loop).length 1 (asArray F (intraNodes loop)) (asArray F (interNodes loop)) (dynWeights loop) ε δ} ≤
      ENNReal.ofReal (c / n) := by
  obtain ⟨δ, hδ, c, h⟩ := generated_series_learned loop_nodup (by rw [loop_intra]; simp) loop_lags loop_acyclic loop_stable
    (semType := "linear-gauss") (by decide) one_pos Witness.normal_centred hε
  refine ⟨δ, hδ, c, fun n burnIn hn => ?_⟩
  exact h _ inferInstance normals noise order n burnIn (by unfold normals; infer_instance) noise_iid ho hn

/-- The same noise for ever longer frames: almost surely the graph is learned from all that are long enough. -/
theorem loop_eventually {ε : ℝ} (hε : 0 < ε) {order : List ℕ}
    (ho : IsTopo (List.range (intraNodes loop).length) (intraEdges (intraNodes loop).length (dynWeights loop 0)) order) :
    ∃ δ > 0, ∀ᵐ ω ∂normals, ∀ burnIn, ∀ᶠ n in Filter.atTop, ∃ F, generateDataframe loop n burnIn "linear-gauss" none (noise ω) order = .ok F ∧
      LearnsDyn (intraNodes loop).length 1 (asArray F (intraNodes loop)) (asArray F (interNodes loop)) (dynWeights loop) ε δ := by
  obtain ⟨δ, hδ, h⟩ := generated_series_eventually_learned loop_nodup (by rw [loop_intra]; simp) loop_lags loop_acyclic loop_stable
    (semType := "linear-gauss") (by decide) one_pos Witness.normal_centred hε
  exact ⟨δ, hδ, h _ inferInstance normals noise order (by unfold normals; infer_instance) noise_iid ho⟩

/-- On all arrays of fitting shapes, for all weights that are acyclic within a time step there is a run, with positive penalties, to which
`LearnsDyn` applies. -/
theorem learnsDyn_applies {X Xlags : Data ℝ} (hS : Shapes X Xlags) {p : ℕ} (hp : Xlags.cols / X.cols = p) {u : ℕ → ℕ → ℕ → ℝ}
    (hu : AcyclicWeights X.cols (u 0)) (δ thr : ℝ) (hδ : 0 < δ) :
    ∃ (minimize : Minimizer ℝ) (fuel : ℕ) (lam : ℝ) (a : Verif.Dynotears.Params ℝ ℕ) (g : Graph Str ℝ), RespectsBounds minimize ∧
      dynotears minimize fuel lam lam X Xlags a = .ok (g, false) ∧ a.maxIter ≠ 0 ∧ 0 < lam ∧
      lam * absSum X.cols (u 0) + lam * ∑ k ∈ Finset.range p, absSum X.cols (u (k + 1)) ≤ δ ∧
      NotWorse (Verif.Dynotears.problem lam lam X Xlags) minimize (bounds a.tabu X.cols p) (splitVec X.cols p u) ∧
      a.hTol ≤ δ ∧ a.wThreshold = thr ∧ a.tabu = ⟨none, none, none⟩ := by
  let a : Verif.Dynotears.Params ℝ ℕ := ⟨100, δ, thr, ⟨none, none, none⟩⟩
  let S : ℝ := absSum X.cols (u 0) + ∑ k ∈ Finset.range p, absSum X.cols (u (k + 1))
  have hS0 : 0 ≤ S := add_nonneg (absSum_nonneg _ _) (Finset.sum_nonneg fun _ _ => absSum_nonneg _ _)
  let lam : ℝ := δ / (1 + S)
  have hlam : 0 < lam := by positivity
  have hpen : lam * absSum X.cols (u 0) + lam * ∑ k ∈ Finset.range p, absSum X.cols (u (k + 1)) ≤ δ := by
    rw [← mul_add]
    change δ / (1 + S) * S ≤ _
    rw [div_mul_eq_mul_div, div_le_iff₀ (by positivity)]
    nlinarith
  have hbox : InBox (bounds a.tabu X.cols p) (splitVec X.cols p u) := by
    refine splitVec_box fun k _ i hi j _ hne => ⟨?_, by simp [a], by simp [a], by simp [a]⟩
    rintro rfl rfl
    exact hne (NoCycle.diag hu ⟨i, hi⟩)
  have hgo : ∀ k f g s, Witness.goTo (splitVec X.cols p u) k f g s (bounds a.tabu X.cols p) = splitVec X.cols p u :=
    fun k f g s => if_pos hbox
  have hm0 : matW X.cols (splitVec X.cols p u) = fun i j : Fin X.cols => u 0 i j := by
    funext i j
    rw [matW_eq]
    exact (splitVec_weight _ _ _ (Nat.zero_le _) i.2 j.2).1
  obtain ⟨s, hs, -⟩ := learnLoop_terminates (P := Verif.Dynotears.problem lam lam X Xlags) (minimize := Witness.goTo (splitVec X.cols p u))
    (bnds := bounds a.tabu X.cols (Xlags.cols / X.cols)) (fun _ => WithTop.coe_ne_top) (2 * (Xlags.cols / X.cols + 1) * X.cols ^ 2) a.maxIter
    a.hTol (le_refl 21)
  have hok := fromNumpyDynamicW_ok.2 ⟨hS, s, hs, rfl⟩
  have hw : s.warned = false := by
    rw [learnLoop_score hs (by simp [a])]
    have h0 : expScore (matW X.cols s.wEst) = 0 := by
      rw [expScore_eq_zero_iff]
      rcases learnLoop_returned hs with h | ⟨k, rho, alpha, start, h⟩
      · have hz : matW X.cols s.wEst = 0 := by
          rw [h]
          funext i j
          simp only [matW, wMat, List.getD_eq_getElem?_getD, List.getElem?_replicate]
          split_ifs <;> simp
        rw [hz]
        intro i hc
        cases hc with
        | single h => exact h rfl
        | tail _ h => exact h rfl
      · rw [h]
        rw [hp]
        have := hgo k ((Verif.Dynotears.problem lam lam X Xlags).func rho alpha) ((Verif.Dynotears.problem lam lam X Xlags).grad rho alpha) start
        rw [this, hm0]
        exact hu
    change ((expScore (matW X.cols s.wEst) : ℝ) : WithTop ℝ) ≤ _
    rw [h0]
    exact_mod_cast hδ.le
  refine ⟨Witness.goTo (splitVec X.cols p u), 21, lam, a, _, Witness.goTo_respects _, by rw [hw] at hok; exact hok, by simp [a], hlam, hpen, ?_,
    le_refl _, rfl, rfl⟩
  intro k rho alpha start _ _ _
  rw [hgo]

end Verif.Recover.DynWitness
