import Verif.BBN.SampleIid
import Mathlib.Probability.Independence.InfinitePi
import Mathlib.MeasureTheory.Measure.Lebesgue.Basic

/-!
# Concrete cases for C128
-/

namespace Verif.BBN
open Function MeasureTheory ProbabilityTheory

/-- The uniform distribution on `[0, 1)`. -/
noncomputable def unitLaw : Measure ℝ := volume.restrict (Set.Ico 0 1)

instance : IsProbabilityMeasure unitLaw := ⟨by simp [unitLaw]⟩

/-- A number that is always in `[0, 1)`. -/
noncomputable def intoUnit (x : ℝ) : ℝ := if 0 ≤ x ∧ x < 1 then x else 0

theorem measurable_intoUnit : Measurable intoUnit :=
  Measurable.ite (measurableSet_Ico (a := (0 : ℝ)) (b := 1)) measurable_id measurable_const

theorem unitLaw_intoUnit {x : ℝ} (h1 : x ≤ 1) : unitLaw {y | intoUnit y ≤ x} = ENNReal.ofReal x := by
  have hm : MeasurableSet {y | intoUnit y ≤ x} := measurable_intoUnit measurableSet_Iic
  rw [unitLaw, Measure.restrict_apply hm]
  have h2 : volume ({y : ℝ | intoUnit y ≤ x} ∩ Set.Ico 0 1) = volume (Set.Icc 0 x) := by
    refine le_antisymm ?_ ?_
    · refine measure_mono fun y hy => ?_
      have hy1 : intoUnit y ≤ x := hy.1
      rw [intoUnit, if_pos (show 0 ≤ y ∧ y < 1 from hy.2)] at hy1
      exact ⟨hy.2.1, hy1⟩
    · rw [← measure_congr (Ico_ae_eq_Icc (a := (0 : ℝ)) (b := x))]
      refine measure_mono fun y hy => ?_
      have hy' : 0 ≤ y ∧ y < 1 := ⟨hy.1, hy.2.trans_le h1⟩
      refine ⟨?_, hy'⟩
      change intoUnit y ≤ x
      rw [intoUnit, if_pos hy']
      exact hy.2.le
  rw [h2, Real.volume_Icc, sub_zero]

/-- For every distribution of the choices there is a source of random numbers as C128 assumes it. -/
theorem source_exists (ν : Measure (ℕ × ℕ → ℕ)) [IsProbabilityMeasure ν] :
    ∃ (P : Measure ((ℕ × ℕ → ℕ) × (ℕ × ℕ → ℝ))) (U : ℕ → ℕ → (ℕ × ℕ → ℕ) × (ℕ × ℕ → ℝ) → ℝ), IsProbabilityMeasure P ∧
      RandomSource P (fun k i ω => ω.1 (k, i)) U ∧ P.map Prod.fst = ν := by
  let μ : Measure (ℕ × ℕ → ℝ) := Measure.infinitePi fun _ => unitLaw
  have hsnd : MeasurePreserving (Prod.snd : (ℕ × ℕ → ℕ) × (ℕ × ℕ → ℝ) → _) (ν.prod μ) μ := measurePreserving_snd
  have hU : ∀ q : ℕ × ℕ, Measurable fun ω : ℕ × ℕ → ℝ => intoUnit (ω q) := fun q => measurable_intoUnit.comp (measurable_pi_apply q)
  refine ⟨ν.prod μ, fun k i ω => intoUnit (ω.2 (k, i)), inferInstance, ⟨?_, ?_, ?_, ?_, ?_, ?_⟩, measurePreserving_fst.map_eq⟩
  · exact fun k i => (measurable_pi_apply (k, i)).comp measurable_fst
  · exact fun k i => (hU (k, i)).comp measurable_snd
  · intro k i ω
    unfold intoUnit
    split
    · assumption
    · norm_num
  · intro k i x h0 h1
    have hm : MeasurableSet {y | intoUnit y ≤ x} := measurable_intoUnit measurableSet_Iic
    have h2 := hsnd.measure_preimage (s := {ω : ℕ × ℕ → ℝ | intoUnit (ω (k, i)) ≤ x}) ((hU (k, i)) measurableSet_Iic).nullMeasurableSet
    have h3 := (measurePreserving_eval_infinitePi (fun _ : ℕ × ℕ => unitLaw) (k, i)).measure_preimage hm.nullMeasurableSet
    exact (h2.trans h3).trans (unitLaw_intoUnit h1)
  · have h1 : iIndepFun (fun (q : ℕ × ℕ) (ω : ℕ × ℕ → ℝ) => intoUnit (ω q)) μ := iIndepFun_infinitePi fun _ => measurable_intoUnit
    rw [iIndepFun_iff_measure_inter_preimage_eq_mul] at h1 ⊢
    intro T sets hs
    have e : (⋂ q ∈ T, (fun ω : (ℕ × ℕ → ℕ) × (ℕ × ℕ → ℝ) => intoUnit (ω.2 (q.1, q.2))) ⁻¹' sets q) =
        Prod.snd ⁻¹' ⋂ q ∈ T, (fun ω : ℕ × ℕ → ℝ => intoUnit (ω q)) ⁻¹' sets q := by
      ext ω
      simp
    rw [e, hsnd.measure_preimage (Finset.measurableSet_biInter _ fun q hq => hU q (hs q hq)).nullMeasurableSet, h1 T hs]
    refine Finset.prod_congr rfl fun q hq => ?_
    rw [← hsnd.measure_preimage (hU q (hs q hq)).nullMeasurableSet]
    rfl
  · exact indepFun_prod (X := fun ω : ℕ × ℕ → ℕ => fun q : ℕ × ℕ => ω (q.1, q.2)) (Y := fun (ω : ℕ × ℕ → ℝ) (q : ℕ × ℕ) => intoUnit (ω (q.1, q.2)))
      (measurable_pi_lambda _ fun q => measurable_pi_apply _) (measurable_pi_lambda _ fun q => hU _)

/-! ### The three-node example with real numbers -/

/-- The nodes with real instead of rational numbers. -/
noncomputable def castNodes {V S : Type} (nodes : List (Node V S ℚ)) : List (Node V S ℝ) := nodes.map fun n => ⟨⟨n.args, fun l => (n.fn l : ℝ)⟩, n.var⟩

section
set_option linter.unusedSectionVars false
variable {V S : Type} [LinearOrder V] [DecidableEq S] {nodes : List (Node V S ℚ)} {dom : V → List S}

theorem castNodes_vars : (castNodes nodes).map Node.var = nodes.map Node.var := by
  rw [castNodes, List.map_map]
  rfl

theorem castNodes_joint (x : V → S) : joint (castNodes nodes) x = (joint nodes x : ℚ) := by
  rw [joint, joint, castNodes, List.map_map, Rat.cast_list_prod, List.map_map]
  rfl

theorem castNodes_mass (x₀ : V → S) (A : (V → S) → Prop) [DecidablePred A] : massOf dom (castNodes nodes) x₀ A = (massOf dom nodes x₀ A : ℚ) := by
  rw [massOf, massOf, castNodes_vars, Rat.cast_list_sum, List.map_map]
  exact congrArg List.sum (List.map_congr_left fun x _ => castNodes_joint x)

theorem castNodes_network (h : IsNetwork dom nodes) : IsNetwork dom (castNodes nodes) := by
  have harr : ∀ u w, (u, w) ∈ arrows (castNodes nodes) ↔ (u, w) ∈ arrows nodes := by
    intro u w
    rw [link_arrows, link_arrows]
    constructor
    · rintro ⟨n, hn, h1⟩
      obtain ⟨m, hm, rfl⟩ := List.mem_map.1 hn
      exact ⟨m, hm, h1⟩
    · rintro ⟨m, hm, h1⟩
      exact ⟨_, List.mem_map_of_mem hm, h1⟩
  refine ⟨⟨by rw [castNodes_vars]; exact h.wf.nodup, ?_, ?_, ?_⟩, ?_, acyclic_mono (fun e he => (harr e.1 e.2).1 he) h.acyclic, ?_, ?_, ?_, ?_⟩
  · intro n hn
    obtain ⟨m, hm, rfl⟩ := List.mem_map.1 hn
    exact h.wf.var_mem m hm
  · intro n hn
    obtain ⟨m, hm, rfl⟩ := List.mem_map.1 hn
    exact h.wf.args_nodup m hm
  · intro n hn a ha
    obtain ⟨m, hm, rfl⟩ := List.mem_map.1 hn
    rw [castNodes_vars]
    exact h.wf.args_sub m hm a ha
  · intro hc
    exact h.nonempty (List.map_eq_nil_iff.1 hc)
  · intro u hu w hw
    rw [castNodes_vars] at hu hw
    exact Graph.wconn_mono (fun e he => (harr e.1 e.2).2 he) (h.connected u hu w hw)
  · intro n hn
    obtain ⟨m, hm, rfl⟩ := List.mem_map.1 hn
    exact h.states_nodup m hm
  · intro n hn x hx
    obtain ⟨m, hm, rfl⟩ := List.mem_map.1 hn
    have := h.nonneg m hm x hx
    change (0 : ℝ) ≤ ((m.fn (m.args.map x) : ℚ) : ℝ)
    exact_mod_cast this
  · intro n hn x hx
    obtain ⟨m, hm, rfl⟩ := List.mem_map.1 hn
    have := h.normalised m hm x hx
    have h2 := congrArg (fun q : ℚ => (q : ℝ)) this
    simp only [Rat.cast_list_sum, List.map_map, Rat.cast_one] at h2
    exact h2

end

/-- C128 applies to the three-node example, with evidence and with the random source of `source_exists`: the probability that of two samples
the first has all variables true and the second only the last one is the product of their conditional probabilities. -/
example {Ω : Type} [MeasurableSpace Ω] {P : Measure Ω} [IsProbabilityMeasure P] {pick : ℕ → ℕ → Ω → ℕ} {U : ℕ → ℕ → Ω → ℝ} (h : RandomSource P pick U) :=
  samples_independent exNd_legal (castNodes_network exNodes_network) (x₀ := fun _ => true) (by rw [castNodes_vars]; exact exDom_valid) (ev := [(2, true)])
    (by simp) (by unfold GoodEvidence; rw [castNodes_vars]; decide) (by rw [castNodes_mass]; exact_mod_cast ex_evidence_pos) 2
    (fun k v => k = 0 ∨ v = 2) (fun k => ⟨fun v _ => by simp only [exDom, List.mem_cons, List.not_mem_nil, or_false]; exact Bool.eq_false_or_eq_true _, fun p hp => by simp only [List.mem_singleton] at hp; subst hp; simp⟩) h

end Verif.BBN
