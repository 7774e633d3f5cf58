import Verif.Generators.Law.Props
import Verif.Generators.SemWitness
import Mathlib.Analysis.Complex.ExponentialBounds

/-!
# Logistic noise does not give the multinomial logit model (C122)

The documentation of the generators calls `"gumbel"` an alias of `"logit"` for categorical variables.  With `"gumbel"` the
probabilities are those of the multinomial logit model (`semGenerator_law`), with `"logit"`, the default, they are not.
-/

namespace Verif.Generators

open MeasureTheory ProbabilityTheory Verif.Mapper Verif.Str Set

theorem logistic_le_iff {t u : ℝ} (ht : t ∈ Ioo (0 : ℝ) 1) (hu : u ∈ Ioo (0 : ℝ) 1) :
    1 * Real.log (u / (1 - u)) ≤ Real.log 3 + 1 * Real.log (t / (1 - t)) ↔ u ≤ 3 * t / (1 + 2 * t) := by
  obtain ⟨h1, h2⟩ := ht
  obtain ⟨h3, h4⟩ := hu
  have h5 : 0 < 1 - t := by linarith
  have h6 : 0 < 1 - u := by linarith
  have h7 : 0 < t / (1 - t) := by positivity
  rw [one_mul, one_mul, ← Real.log_mul (by norm_num) h7.ne', Real.log_le_log_iff (by positivity) (by positivity),
    ← mul_div_assoc, div_le_div_iff₀ h6 h5, le_div_iff₀ (by linarith)]
  constructor <;> intro h <;> nlinarith

theorem integral_logistic : ∫ t in (0 : ℝ)..1, 3 * t / (1 + 2 * t) = 3 / 2 - 3 / 4 * Real.log 3 := by
  have h1 : ∀ t ∈ Set.uIcc (0 : ℝ) 1, HasDerivAt (fun t => 3 / 2 * t - 3 / 4 * Real.log (1 + 2 * t)) (3 * t / (1 + 2 * t)) t := by
    intro t ht
    rw [Set.uIcc_of_le zero_le_one] at ht
    have h2 : 1 + 2 * t ≠ 0 := by linarith [ht.1]
    have h3 : HasDerivAt (fun t : ℝ => 1 + 2 * t) 2 t := by
      simpa using ((hasDerivAt_id t).const_mul 2).const_add 1
    have h4 := ((hasDerivAt_id t).const_mul (3 / 2)).sub ((h3.log h2).const_mul (3 / 4))
    refine h4.congr_deriv ?_
    field_simp
    ring
  rw [intervalIntegral.integral_eq_sub_of_hasDerivAt h1]
  · norm_num
  · refine ContinuousOn.intervalIntegrable ?_
    refine ContinuousOn.div (by fun_prop) (by fun_prop) ?_
    intro t ht
    rw [Set.uIcc_of_le zero_le_one] at ht
    linarith [ht.1]

/-- Two independent logistic numbers: the probability that the second is at most the first plus `log 3`. -/
theorem logistic_max : ((logisticLaw 1).prod (logisticLaw 1)) {d | d.2 ≤ Real.log 3 + d.1} =
    ENNReal.ofReal (3 / 2 - 3 / 4 * Real.log 3) := by
  have hm : MeasurableSet {d : ℝ × ℝ | d.2 ≤ Real.log 3 + d.1} := measurableSet_le (by fun_prop) (by fun_prop)
  rw [Measure.prod_apply hm, logisticLaw, lintegral_map (measurable_measure_prodMk_left hm) (measurable_logistic 1)]
  have h1 : ∀ᵐ t ∂uniformLaw, (uniformLaw.map fun u => 1 * Real.log (u / (1 - u)))
      (Prod.mk (1 * Real.log (t / (1 - t))) ⁻¹' {d : ℝ × ℝ | d.2 ≤ Real.log 3 + d.1}) = ENNReal.ofReal (3 * t / (1 + 2 * t)) := by
    filter_upwards [uniformLaw_Ioo] with t ht
    have h2 : 3 * t / (1 + 2 * t) ≤ 1 := by
      rw [div_le_one (by linarith [ht.1])]
      linarith [ht.2]
    rw [Measure.map_apply (measurable_logistic 1) (measurable_prodMk_left hm), ← uniformLaw_Iic h2]
    refine measure_congr ?_
    filter_upwards [uniformLaw_Ioo] with u hu
    exact propext (logistic_le_iff ht hu)
  rw [lintegral_congr_ae h1, uniformLaw, ← restrict_Ioo_eq_restrict_Ico, restrict_Ioo_eq_restrict_Ioc,
    ← ofReal_integral_eq_lintegral_ofReal, ← intervalIntegral.integral_of_le zero_le_one, integral_logistic]
  · rw [← IntegrableOn, ← intervalIntegrable_iff_integrableOn_Ioc_of_le zero_le_one]
    refine ContinuousOn.intervalIntegrable ?_
    refine ContinuousOn.div (by fun_prop) (by fun_prop) ?_
    intro t ht
    rw [Set.uIcc_of_le zero_le_one] at ht
    linarith [ht.1]
  · filter_upwards [ae_restrict_mem measurableSet_Ioc] with t ht
    have := ht.1
    simp only [Pi.zero_apply]
    positivity

namespace LawLogit

theorem idxOf_pair {α : Type} [DecidableEq α] {a b : α} : [a, b].idxOf a = 0 ∧ (a ≠ b → [a, b].idxOf b = 1) :=
  ⟨List.idxOf_cons_self, fun h => by rw [List.idxOf_cons_ne _ h, List.idxOf_cons_self]⟩

def A : Str := ['A']

/-- One categorical variable with two categories. -/
noncomputable def graph : SemGraph Str := ⟨[A], []⟩

def ty (_ : Str) : VarType := .categorical 2

theorem wf : graph.WF := ⟨by simp [graph], by simp [graph, SemGraph.pairs], by simp [graph, SemGraph.pairs]⟩

theorem acyclic : Verif.Graph.Acyclic graph.pairs := by
  intro v hv
  have h : ∀ u w, ¬ Verif.Graph.EdgeRel graph.pairs u w := by
    intro u w h
    simp [graph, SemGraph.pairs, Verif.Graph.EdgeRel] at h
  obtain ⟨u, -, hu⟩ := Relation.TransGen.tail'_iff.1 hv
  exact h _ _ hu

theorem distinct : Distinct strFmt (schOf graph.nodes ty) := by
  refine distinct_strings (show ([A].map fun v => (v, ty v)).map (·.1) |>.Nodup by decide) ?_
  intro u k v t hu hv ht i hi
  simp only [schOf, graph, List.map_cons, List.map_nil, List.mem_singleton, Prod.mk.injEq] at hv
  exact absurd hv.2 (ht 2)

theorem documented : Documented graph.nodes none (VarType.categorical 2).str ty :=
  ⟨⟨.categorical 2, rfl, by rintro k ⟨⟩; norm_num⟩, fun v _ => ⟨rfl, by rintro k ⟨⟩; norm_num⟩⟩

theorem topo : IsTopo graph.nodes graph.pairs [A] := ⟨List.Perm.refl _, by simp, by simp⟩

theorem valid : ValidLinear graph ty {} true := by
  refine ⟨⟨?_, ?_, ?_, ?_⟩, ?_, ?_⟩
  · intros; decide
  · intros; decide
  · intros; constructor <;> norm_num
  · intros; decide
  · intros; decide
  · intros; decide

/-- The names of the columns. -/
theorem columns {n : ℕ} (D : SemDraws Str n) (empty : ℕ → Col n) (F : SemFrame Str n)
    (h : semGenerator strFmt permissible [A] empty D graph none (VarType.categorical 2).str 1 {} true = .ok F) :
    F.map (·.1) = [strFmt A 0, strFmt A 1] := by
  obtain ⟨m, hm, Fa⟩ := initSem_ok wf distinct acyclic documented (List.Perm.refl permissible)
  obtain ⟨w, hw, -, -⟩ := weightMatrix_ok wf Fa (by rintro v - k ⟨⟩; norm_num) D valid
  have hrun := semGenerator_run wf Fa hm (fun v hv => topo.perm.mem_iff.1 hv) (noiseStd := 1) valid.toValid hw empty
  rw [h] at hrun
  cases hrun
  rw [List.map_fst_zip (by simp [nFeatures])]
  unfold initSem at hm
  rw [if_neg (not_not.2 acyclic)] at hm
  have h2 : (match validateSchema [A] (VarType.categorical 2).str none with
    | .error e => .error e
    | .ok schema => create strFmt permissible schema : Except Err (Mapper Str)) = .ok m := hm
  have h3 : (match (match validateSchema [A] (VarType.categorical 2).str none with
    | .error e => .error e
    | .ok schema => create strFmt permissible schema : Except Err (Mapper Str)) with
    | .error _ => []
    | .ok m => m.featureList) = [strFmt A 0, strFmt A 1] := by decide +kernel
  rw [h2] at h3
  exact h3

/-- The means of the two categories are `log 3` and 0.  In the multinomial logit model the probability of the first is 3/4.  With
the default distribution of the noise it is smaller. -/
theorem logit_not_softmax {Ω : Type} [MeasurableSpace Ω] {P : Measure Ω} [IsProbabilityMeasure P] {D₀ : SemDraws Str 1}
    {D : Ω → SemDraws Str 1} (hD : RandomDraws "logit" logisticLaw graph 1 P D₀ D) (h0 : D₀.intercept 0 = Real.log 3)
    (h1 : D₀.intercept 1 = 0) (empty : Ω → ℕ → Col 1) :
    P {ω | ∃ F, semGenerator strFmt permissible [A] (empty ω) (D ω) graph none (VarType.categorical 2).str 1 {} true = .ok F ∧
      (strFmt A 0, fun _ => 1) ∈ F} < ENNReal.ofReal (Real.exp (Real.log 3) / (Real.exp (Real.log 3) + Real.exp 0)) := by
  have hind := (indepFun_iff_map_prod_eq_prod_map_map (hD.measurable _).aemeasurable (hD.measurable _).aemeasurable).1
    (hD.indep.indepFun (show (DrawIx.noise A 0 0 : DrawIx Str 1) ≠ .noise A 1 0 by simp))
  rw [hD.law, hD.law] at hind
  have hs : noiseScale graph 1 A = 1 := by simp [noiseScale]
  simp only [drawLaw, hs] at hind
  have hm : MeasurableSet {d : ℝ × ℝ | d.2 ≤ Real.log 3 + d.1} := measurableSet_le (by fun_prop) (by fun_prop)
  have h2 := logistic_max
  rw [← hind, Measure.map_apply ((hD.measurable _).prodMk (hD.measurable _)) hm] at h2
  refine lt_of_le_of_lt (measure_mono (t := (fun ω => (SemDraws.value "logit" graph 1 (D ω) (.noise A 0 0),
    SemDraws.value "logit" graph 1 (D ω) (.noise A 1 0))) ⁻¹' {d : ℝ × ℝ | d.2 ≤ Real.log 3 + d.1}) ?_) ?_
  · rintro ω ⟨F, hF, hmem⟩
    obtain ⟨F', hF', val, W, b, hFr, -, hb, hR⟩ := semGenerator_correct wf acyclic distinct documented (List.Perm.refl permissible)
      topo (hD.uniform ω) valid 1 (empty ω)
    rw [hF] at hF'
    cases hF'
    rw [columns _ _ _ hF, hD.intercept] at hb
    have hA : A ∈ graph.nodes := by simp [graph]
    obtain ⟨choice, hc⟩ := hR A hA
    obtain ⟨-, h4, h5⟩ := hc 0
    have h6 : val (strFmt A 0) = fun _ => 1 := (((hFr.2 _ _).1 hmem).2).symm
    have h7 := h5 0 (by norm_num)
    rw [h6] at h7
    have h8 : choice 0 = 0 := by
      by_contra hne
      rw [if_neg fun h => hne h.symm] at h7
      norm_num at h7
    have h9 := h4 1 (by norm_num)
    rw [h8] at h9
    have hpr : graph.preds A = [] := rfl
    have e0 : b (strFmt A 0) = Real.log 3 := by
      rw [hb, if_pos rfl, idxOf_pair.1, h0]
    have e1 : b (strFmt A 1) = 0 := by
      rw [hb, if_pos rfl, idxOf_pair.2 (by decide), h1]
    simp only [structuralMean, hpr, List.flatMap_nil, List.map_nil, List.sum_nil, zero_add, e0, e1, noiseOf, if_true] at h9
    rw [if_neg (by decide), if_neg (by decide)] at h9
    simpa only [Set.mem_preimage, Set.mem_ofPred_eq, SemDraws.value, hs] using h9
  · rw [h2, Real.exp_log (by norm_num), Real.exp_zero]
    refine (ENNReal.ofReal_lt_ofReal_iff (by norm_num)).2 ?_
    have : 1 < Real.log 3 := by
      rw [Real.lt_log_iff_exp_lt (by norm_num)]
      linarith [Real.exp_one_lt_d9]
    linarith

end LawLogit

end Verif.Generators
