import Verif.Simulate.Learn
import Verif.Generators.Law.Witness
import Verif.Notears.WitnessIdentify
import Mathlib.Probability.Distributions.Gaussian.Real

/-!
# Concrete cases for C126
-/

namespace Verif.Simulate.Witness

open MeasureTheory ProbabilityTheory Verif.Generators Verif.Notears Verif.Notears.Witness Verif.Mapper

theorem gaussian_sq (v : NNReal) : Integrable (fun x => x ^ 2) (gaussianReal 0 v) ∧ ∫ x, x ^ 2 ∂(gaussianReal 0 v) = v := by
  have h2 : MemLp (fun x : ℝ => x) 2 (gaussianReal 0 v) := memLp_id_gaussianReal 2
  refine ⟨(memLp_two_iff_integrable_sq measurable_id.aestronglyMeasurable).1 h2, ?_⟩
  have h := variance_fun_id_gaussianReal (μ := 0) (v := v)
  rw [variance_eq_integral (X := fun x : ℝ => x) measurable_id.aemeasurable] at h
  simpa using h

section
variable {N : Type} [DecidableEq N]

/-- The hypotheses of `generated_graph_is_learned` and `generated_graph_is_returned` are met, with Gaussian noise, by every graph
without cycles that has a node and whose edges have weights that are far enough from 0: some generated data and some run of `from_pandas` give the
graph back. -/
theorem learning_possible {g : SemGraph N} (hg : g.WF) (ha : Verif.Graph.Acyclic g.pairs) (hne : g.nodes ≠ []) {ε thr : ℝ} (hε : 0 < ε)
    (hthr : ε ≤ thr) (hw : ∀ e ∈ g.edges, ∃ c, e.2.2 = some c ∧ thr + ε ≤ |c|) (fmt : N → ℕ → N) :
    ∃ (n : ℕ) (E : Outside N n Unit) (F : SemFrame N n) (v δ : ℝ) (minimize : Minimizer ℝ) (a : Params ℝ N) (g' : Graph N ℝ),
      E.OK g ∧ E.kernel = none ∧ continuousFrame E g "gaussian" 1 false = .ok F ∧ 0 < v ∧ 0 < δ ∧
      GoodArgs g (frame F) minimize 21 a v δ ε ∧ GoodRun g (frame F) minimize 21 a g' δ ε ∧ a.wThreshold = thr ∧ SameGraph g g' ε := by
  obtain ⟨δ, hδ, h⟩ := generated_graph_is_returned (C := Unit) hg ha (fun e he => (hw e he).imp fun _ => And.left) hne hε
  have hd0 : (0 : ℝ) < g.nodes.length := by exact_mod_cast List.length_pos_iff.2 hne
  let v : NNReal := ⟨δ ^ 2 / (2 * g.nodes.length), by positivity⟩
  have hv : (v : ℝ) = δ ^ 2 / (2 * g.nodes.length) := rfl
  have hv0 : 0 < (v : ℝ) := by rw [hv]; positivity
  let L : ℝ → Measure ℝ := fun _ => gaussianReal 0 v
  have hLp : ∀ s, IsProbabilityMeasure (L s) := fun s => by change IsProbabilityMeasure (gaussianReal 0 v); infer_instance
  obtain ⟨n, hn⟩ := h "gaussian" (by decide) L (gaussian_sq v).1 (by change ∫ x, x ∂(gaussianReal 0 v) = 0; simp)
    (by change 0 < ∫ x, x ^ 2 ∂(gaussianReal 0 v); rw [(gaussian_sq v).2]; exact hv0) (1 / 2) (by norm_num)
  obtain ⟨order, horder⟩ := exists_topo hg.nodes hg.ends ha
  let D₀ : SemDraws N n := ⟨fun _ _ => 0, fun _ _ => 0, fun _ => 0, fun _ _ _ _ _ => 0, fun _ _ => 0, fun _ _ => 0, fun _ _ => 0⟩
  obtain ⟨P, hP, hD⟩ := LawWitness.exists_draws (n := n) "gaussian" L g 1 D₀
  let E : (DrawIx N n → ℝ) → Outside N n Unit := fun ω => ⟨fmt, permissible, order, fun _ _ => 0, LawWitness.coordinates D₀ ω, none⟩
  obtain ⟨S, -, hS, hlearn⟩ := hn n (le_refl _) _ P D₀ E (fun ω => ⟨.refl _, fun _ => horder, hD.uniform ω⟩) (fun _ => rfl) hD
  have hSn : S.Nonempty := by
    by_contra hc
    rw [Set.not_nonempty_iff_eq_empty] at hc
    rw [hc, measure_empty] at hS
    norm_num at hS
  obtain ⟨ω, hω⟩ := hSn
  obtain ⟨F, hF, hall⟩ := hlearn ω hω
  have hOK : (E ω).OK g := ⟨.refl _, fun _ => horder, hD.uniform ω⟩
  obtain ⟨hperm, -, -⟩ := generated_residual hOK rfl hg ha (fun e he => (hw e he).imp fun _ => And.left) (distribution := "gaussian")
    (by decide) hF
  have hlen : ((frame F).cols.length : ℝ) = g.nodes.length := by exact_mod_cast hperm.length_eq
  have hsize : 2 * ((frame F).cols.length : ℝ) * v = δ ^ 2 := by
    rw [hlen, hv]
    field_simp
  let a : Params ℝ N := ⟨1, δ, thr, {}⟩
  have hargs : GoodArgs g (frame F) (better (rowMajor (frame F).cols.length (orderedWeights g (frame F).cols))) 21 a v δ ε := by
    refine ⟨le_refl _, rfl, by simp [a], better_respects _, better_notWorse _ (box_permitted ?_), hδ.le, ?_, ?_, le_refl _, hthr, ?_⟩
    · intro i hi j hj hne
      refine ⟨?_, by simp, by simp, by simp⟩
      rintro rfl
      exact hne (NoCycle.diag (ordered_acyclic ha (frame F).cols) ⟨i, hi⟩)
    · rw [hsize]
      change δ ^ 2 ≤ 10 ^ 19 * δ ^ 2
      nlinarith [sq_nonneg δ]
    · rw [hsize]
      change δ ^ 2 ≤ (δ * 4 ^ (1 - 1)) ^ 2
      simp
    · intro e he c hc
      obtain ⟨c', hc', hb⟩ := hw e he
      rw [hc] at hc'
      obtain rfl := Option.some.inj hc'
      exact hb
  obtain ⟨g', hrun, hsame, hsil⟩ := hall _ 21 a (by
    change GoodArgs _ _ _ _ _ (∫ x, x ^ 2 ∂(gaussianReal 0 v)) _ _
    rw [(gaussian_sq v).2]
    exact hargs)
  exact ⟨n, E ω, F, v, δ, _, a, g', hOK, rfl, hF, hv0, hδ, hargs, ⟨hrun, rfl, hargs.iterations, hargs.bounds, hargs.optimiser, hsil,
    hargs.tolerance, hargs.low, hargs.high⟩, rfl, hsame⟩

end

/-- A graph with three nodes. -/
noncomputable def chain : SemGraph ℕ := ⟨[2, 0, 1], [(0, 1, some 2), (1, 2, some (-1))]⟩

theorem chain_wf : chain.WF := by
  refine ⟨show [2, 0, 1].Nodup by decide, show [(0, 1), (1, 2)].Nodup by decide, ?_⟩
  show ∀ e ∈ [(0, 1), (1, 2)], e.1 ∈ [2, 0, 1] ∧ e.2 ∈ [2, 0, 1]
  decide

theorem chain_acyclic : Verif.Graph.Acyclic chain.pairs := by
  have h : ∀ u v, Relation.TransGen (Verif.Graph.EdgeRel chain.pairs) u v → u < v := by
    intro u v huv
    have h1 : ∀ e ∈ [(0, 1), (1, 2)], e.1 < e.2 := by decide
    induction huv with
    | single h => exact h1 _ h
    | tail _ h ih => exact ih.trans (h1 _ h)
  exact fun v hv => lt_irrefl _ (h v v hv)

/-- With the default threshold 0 replaced by 0.3. -/
example (fmt : ℕ → ℕ → ℕ) := learning_possible chain_wf chain_acyclic (by simp [chain]) (ε := 1 / 10) (thr := 3 / 10) (by norm_num)
  (by norm_num) (by
    intro e he
    simp only [chain, List.mem_cons, List.not_mem_nil, or_false] at he
    rcases he with rfl | rfl
    · exact ⟨2, rfl, by norm_num⟩
    · exact ⟨-1, rfl, by norm_num⟩) fmt

end Verif.Simulate.Witness
