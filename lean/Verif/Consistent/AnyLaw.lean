import Verif.Consistent.Rows
import Verif.Consistent.Limit
import Mathlib.Probability.StrongLaw

/-!
# Rows of an arbitrary distribution
-/

namespace Verif.Consistent

open Verif.BBN Function MeasureTheory ProbabilityTheory Filter Topology

section
set_option linter.unusedSectionVars false
variable {V S : Type} [LinearOrder V] [LinearOrder S] {Ω : Type} [MeasurableSpace Ω]

/-- Specification: the random rows `X 0, X 1, …` are independent, all have the same distribution, and hold states of the variables `vs`. -/
structure SameRows (P : Measure Ω) (dom : V → List S) (vs : List V) (X : ℕ → Ω → V → S) : Prop where
  states : ∀ i, ∀ᵐ ω ∂P, ∀ v ∈ vs, X i ω v ∈ dom v
  measurable : ∀ i, @Measurable _ _ _ ⊤ (fun ω (v : {v // v ∈ vs}) => X i ω v)
  indep : iIndepFun (m := fun _ => ⊤) (fun i ω (v : {v // v ∈ vs}) => X i ω v) P
  same : ∀ i, ∀ B : Set ({v // v ∈ vs} → S), P {ω | (fun v : {v // v ∈ vs} => X i ω v) ∈ B} = P {ω | (fun v : {v // v ∈ vs} => X 0 ω v) ∈ B}

/-- Specification: the probability that a row has the property `A`. -/
noncomputable def rowProb (P : Measure Ω) (X : ℕ → Ω → V → S) (A : (V → S) → Prop) : ℝ := (P {ω | A (X 0 ω)}).toReal

/-- Specification: the conditional probability of the state `s` of `v` given the states `ps` of its parents; all states are equally probable
if the states of the parents are impossible. -/
noncomputable def limitTable (P : Measure Ω) (X : ℕ → Ω → V → S) (dom : V → List S) (par : V → List V) (v : V) (s : S) (ps : List S) : ℝ :=
  open Classical in
  if rowProb P X (fun x => (par v).map x = ps) = 0 then 1 / (dom v).length
  else rowProb P X (fun x => x v = s ∧ (par v).map x = ps) / rowProb P X (fun x => (par v).map x = ps)

/-- The probability of an assignment. -/
noncomputable def rowLaw (P : Measure Ω) (X : ℕ → Ω → V → S) (vs : List V) (σ : V → S) : ℝ := rowProb P X fun x => ∀ v ∈ vs, x v = σ v

variable {dom : V → List S} {vs : List V} {par : V → List V} {P : Measure Ω} [IsProbabilityMeasure P] {X : ℕ → Ω → V → S}

theorem SameRows.cell_measurable (hX : SameRows P dom vs X) (i : ℕ) (σ : V → S) : MeasurableSet {ω | ∀ v ∈ vs, X i ω v = σ v} := by
  have := hX.measurable i (t := {y | ∀ v : {v // v ∈ vs}, y v = σ v}) trivial
  convert this using 1
  ext ω
  exact ⟨fun h v => h v v.2, fun h v hv => h ⟨v, hv⟩⟩

theorem SameRows.cell_same (hX : SameRows P dom vs X) (i : ℕ) (σ : V → S) : P {ω | ∀ v ∈ vs, X i ω v = σ v} = P {ω | ∀ v ∈ vs, X 0 ω v = σ v} := by
  have := hX.same i {y | ∀ v : {v // v ∈ vs}, y v = σ v}
  convert this using 2
  all_goals
    ext ω
    exact ⟨fun h v => h v v.2, fun h v hv => h ⟨v, hv⟩⟩

/-- The probability of a property is the sum of the probabilities of the assignments with the property. -/
theorem rowProb_eq (hX : SameRows P dom vs X) (hvs : vs.Nodup) (hd : ∀ v ∈ vs, (dom v).Nodup) (x₀ : V → S) (A : (V → S) → Prop) [DecidablePred A]
    (hA : ∀ x y : V → S, (∀ v ∈ vs, x v = y v) → (A x ↔ A y)) : rowProb P X A = massWith dom vs (rowLaw P X vs) x₀ A := by
  classical
  have h1 : P {ω | A (X 0 ω)} = P (⋃ σ ∈ (worlds dom vs x₀).toFinset.filter A, {ω | ∀ v ∈ vs, X 0 ω v = σ v}) := by
    refine measure_congr (eventuallyEq_set.2 ?_)
    filter_upwards [hX.states 0] with ω hω
    simp only [Set.mem_iUnion, Finset.mem_filter, List.mem_toFinset]
    constructor
    · intro h
      obtain ⟨σ, hσ, he⟩ := Verif.Network.mem_worlds (dom := dom) (vs := vs) (x₀ := x₀) (y := X 0 ω) hω
      exact ⟨σ, ⟨hσ, (hA _ _ he).2 h⟩, fun v hv => (he v hv).symm⟩
    · rintro ⟨σ, ⟨-, h⟩, he⟩
      exact (hA _ _ he).2 h
  rw [rowProb, h1, measure_biUnion_finset]
  · rw [ENNReal.toReal_sum fun σ _ => measure_ne_top _ _]
    unfold massWith
    rw [← List.sum_toFinset _ ((worlds_nodup hvs hd x₀).filter _), List.toFinset_filter]
    refine Finset.sum_congr ?_ fun σ _ => rfl
    ext σ
    simp
  · intro σ hσ τ hτ hne
    refine Set.disjoint_left.2 fun ω h1 h2 => hne ?_
    rw [Finset.mem_coe, Finset.mem_filter, List.mem_toFinset] at hσ hτ
    exact worlds_inj hσ.1 hτ.1 fun v hv => by rw [← h1 v hv, h2 v hv]
  · exact fun σ _ => hX.cell_measurable 0 σ

theorem rowLaw_nonneg (σ : V → S) : 0 ≤ rowLaw P X vs σ := ENNReal.toReal_nonneg

theorem rowLaw_total (hX : SameRows P dom vs X) (hvs : vs.Nodup) (hd : ∀ v ∈ vs, (dom v).Nodup) (x₀ : V → S) :
    sumOver dom vs (rowLaw P X vs) x₀ = 1 := by
  have := rowProb_eq hX hvs hd x₀ (fun _ => True) fun _ _ _ => Iff.rfl
  rw [massWith_eq_sumOver] at this
  simp only [if_true] at this
  rw [← this]
  simp [rowProb]

theorem map_par_congr {l : List V} (hl : ∀ p ∈ l, p ∈ vs) {x y : V → S} (h : ∀ v ∈ vs, x v = y v) : l.map x = l.map y :=
  List.map_congr_left fun p hp => h p (hl p hp)

/-- The limit tables are the conditional probabilities of the distribution. -/
theorem isLimit (hX : SameRows P dom vs X) (hvs : vs.Nodup) (hd : ∀ v ∈ vs, (dom v).Nodup) (hpar : ∀ v ∈ vs, ∀ p ∈ par v, p ∈ vs) (x₀ : V → S) :
    IsLimit dom vs par (limitTable P X dom par) (rowLaw P X vs) x₀ := by
  have e1 : ∀ v ∈ vs, ∀ z : V → S, rowProb P X (fun x => (par v).map x = (par v).map z) =
      massWith dom vs (rowLaw P X vs) x₀ (fun x => (par v).map x = (par v).map z) := fun v hv z =>
    rowProb_eq hX hvs hd x₀ _ fun x y h => by rw [map_par_congr (hpar v hv) h]
  have e2 : ∀ v ∈ vs, ∀ (s : S) (z : V → S), rowProb P X (fun x => x v = s ∧ (par v).map x = (par v).map z) =
      massWith dom vs (rowLaw P X vs) x₀ (fun x => x v = s ∧ (par v).map x = (par v).map z) := fun v hv s z =>
    rowProb_eq hX hvs hd x₀ _ fun x y h => by rw [map_par_congr (hpar v hv) h, h v hv]
  refine ⟨fun x _ => rowLaw_nonneg x, fun v hv z _ s _ => ?_, fun v hv z _ h0 s _ => ?_⟩
  · rw [← e1 v hv, ← e2 v hv, limitTable]
    split_ifs with h0
    · rw [h0, mul_zero]
      refine le_antisymm ?_ ENNReal.toReal_nonneg
      rw [← h0]
      exact ENNReal.toReal_mono (measure_ne_top _ _) (measure_mono fun ω h => h.2)
    · rw [div_mul_cancel₀ _ h0]
  · rw [limitTable, e1 v hv, if_pos h0]

theorem limitTable_nonneg (v : V) (s : S) (ps : List S) : 0 ≤ limitTable P X dom par v s ps := by
  rw [limitTable]
  split_ifs
  · positivity
  · exact div_nonneg ENNReal.toReal_nonneg ENNReal.toReal_nonneg

theorem limitTable_sum (hX : SameRows P dom vs X) {v : V} (hv : v ∈ vs) (hd : (dom v).Nodup) (hne : dom v ≠ []) (ps : List S)
    (hp : ∀ p ∈ par v, p ∈ vs) : ((dom v).map fun s => limitTable P X dom par v s ps).sum = 1 := by
  classical
  have hl : (0 : ℝ) < (dom v).length := by exact_mod_cast List.length_pos_iff.2 hne
  by_cases h0 : rowProb P X (fun x => (par v).map x = ps) = 0
  · simp only [limitTable, if_pos h0]
    simp [List.map_const', List.sum_replicate]
    field_simp
  · simp only [limitTable, if_neg h0, div_eq_mul_inv]
    rw [List.sum_map_mul_right, ← div_eq_mul_inv, div_eq_one_iff_eq h0]
    have hm : ∀ B : ({v // v ∈ vs} → S) → Prop, MeasurableSet {ω | B fun v => X 0 ω v} := fun B => hX.measurable 0 (t := {y | B y}) trivial
    have h1 : P {ω | (par v).map (X 0 ω) = ps} = P (⋃ s ∈ (dom v).toFinset, {ω | X 0 ω v = s ∧ (par v).map (X 0 ω) = ps}) := by
      refine measure_congr (eventuallyEq_set.2 ?_)
      filter_upwards [hX.states 0] with ω hω
      simp only [Set.mem_iUnion, List.mem_toFinset]
      constructor
      · exact fun h => ⟨X 0 ω v, hω v hv, rfl, h⟩
      · rintro ⟨s, -, -, h⟩
        exact h
    rw [rowProb, h1, measure_biUnion_finset]
    · rw [ENNReal.toReal_sum fun σ _ => measure_ne_top _ _, List.sum_toFinset _ hd]
      rfl
    · intro s _ t _ hne
      refine Set.disjoint_left.2 fun ω h1 h2 => hne ?_
      exact h1.1.symm.trans h2.1
    · intro s _
      have := hm fun y => y ⟨v, hv⟩ = s ∧ (par v).attach.map (fun p => y ⟨p.1, hp p.1 p.2⟩) = ps
      convert this using 5
      exact (List.attach_map_val (f := _) (l := _)).symm

/-- The relative frequency of an assignment among the first rows converges to its probability. -/
theorem rowLaw_tendsto (hX : SameRows P dom vs X) (σ : V → S) :
    ∀ᵐ ω ∂P, Tendsto (fun n : ℕ => (cell vs (fun i : Fin n => X i ω) σ : ℝ) / n) atTop (𝓝 (rowLaw P X vs σ)) := by
  classical
  letI : MeasurableSpace ({v // v ∈ vs} → S) := ⊤
  let φ : ({v // v ∈ vs} → S) → ℝ := fun y => if ∀ v : {v // v ∈ vs}, y v = σ v then 1 else 0
  have hφ : Measurable φ := fun _ _ => trivial
  let Y : ℕ → Ω → ℝ := fun i ω => φ fun v => X i ω v
  have hY : ∀ i, Y i = Set.indicator {ω | ∀ v ∈ vs, X i ω v = σ v} 1 := by
    intro i
    funext ω
    by_cases hω : ∀ v ∈ vs, X i ω v = σ v
    · rw [Set.indicator_of_mem (show ω ∈ {ω | ∀ v ∈ vs, X i ω v = σ v} from hω)]
      exact if_pos fun v : {v // v ∈ vs} => hω v v.2
    · rw [Set.indicator_of_notMem (show ω ∉ {ω | ∀ v ∈ vs, X i ω v = σ v} from hω)]
      exact if_neg fun h => hω fun v hv => h ⟨v, hv⟩
  have hYm : ∀ i, Measurable (Y i) := fun i => hφ.comp (hX.measurable i)
  have hint : Integrable (Y 0) P := by
    rw [hY]
    exact (integrable_const (1 : ℝ)).indicator (hX.cell_measurable 0 σ)
  have hmean : ∫ ω, Y 0 ω ∂P = rowLaw P X vs σ := by
    rw [hY, integral_indicator_one (hX.cell_measurable 0 σ), measureReal_def]
    rfl
  have hind : Pairwise ((IndepFun · · P) on Y) := fun i j hij => (hX.indep.indepFun hij).comp hφ hφ
  have hid : ∀ i, IdentDistrib (Y i) (Y 0) P P := by
    intro i
    refine ⟨(hYm i).aemeasurable, (hYm 0).aemeasurable, ?_⟩
    ext B hB
    rw [Measure.map_apply (hYm i) hB, Measure.map_apply (hYm 0) hB]
    exact hX.same i (φ ⁻¹' B)
  filter_upwards [strong_law_ae_real Y hint hind hid] with ω hω
  rw [hmean] at hω
  refine hω.congr fun n => ?_
  congr 1
  rw [cell, Finset.card_filter, ← Fin.sum_univ_eq_sum_range (fun i => Y i ω)]
  push_cast
  refine Finset.sum_congr rfl fun i _ => ?_
  change (if ∀ v : {v // v ∈ vs}, X i ω v = σ v then (1 : ℝ) else 0) = _
  simp only [Subtype.forall]

/-- Almost surely all rows hold possible states of the variables, and all frequencies converge. -/
theorem rows_settle (hX : SameRows P dom vs X) (hvs : vs.Nodup) (hpar : ∀ v ∈ vs, ∀ p ∈ par v, p ∈ vs) (x₀ : V → S) :
    ∀ᵐ ω ∂P, (∀ i, ∀ v ∈ vs, X i ω v ∈ dom v) ∧
      (∀ i, ∀ v ∈ vs, massWith dom vs (rowLaw P X vs) x₀ (fun x => (par v).map x = (par v).map (X i ω)) ≠ 0) ∧
      ∀ δ > 0, ∃ n₀ : ℕ, ∀ n, n₀ ≤ n → ∀ σ ∈ worlds dom vs x₀, |(cell vs (fun i : Fin n => X i ω) σ : ℝ) / n - rowLaw P X vs σ| ≤ δ := by
  classical
  have h1 : ∀ᵐ ω ∂P, ∀ i, ∀ v ∈ vs, X i ω v ∈ dom v := ae_all_iff.2 hX.states
  have h2 : ∀ᵐ ω ∂P, ∀ σ ∈ (worlds dom vs x₀).toFinset,
      Tendsto (fun n : ℕ => (cell vs (fun i : Fin n => X i ω) σ : ℝ) / n) atTop (𝓝 (rowLaw P X vs σ)) := by
    rw [Filter.eventually_all_finset]
    exact fun σ _ => rowLaw_tendsto hX σ
  have h3 : ∀ᵐ ω ∂P, ∀ i, ∀ σ ∈ (worlds dom vs x₀).toFinset, rowLaw P X vs σ = 0 → ¬ ∀ v ∈ vs, X i ω v = σ v := by
    rw [ae_all_iff]
    intro i
    rw [Filter.eventually_all_finset]
    intro σ _
    by_cases h0 : rowLaw P X vs σ = 0
    · have : P {ω | ∀ v ∈ vs, X i ω v = σ v} = 0 := by
        rw [hX.cell_same]
        exact (ENNReal.toReal_eq_zero_iff _).1 h0 |>.resolve_right (measure_ne_top _ _)
      rw [ae_iff]
      convert this using 2
      ext ω
      simp [h0]
    · exact ae_of_all _ fun ω h => absurd h h0
  filter_upwards [h1, h2, h3] with ω hω1 hω2 hω3
  refine ⟨hω1, fun i v hv h0 => ?_, fun δ hδ => ?_⟩
  · obtain ⟨σ, hσ, he⟩ := Verif.Network.mem_worlds (dom := dom) (vs := vs) (x₀ := x₀) (y := X i ω) (hω1 i)
    refine hω3 i σ (List.mem_toFinset.2 hσ) ?_ fun v hv => (he v hv).symm
    unfold massWith at h0
    refine le_antisymm ?_ (rowLaw_nonneg _)
    rw [← h0]
    refine List.single_le_sum ?_ _ (List.mem_map_of_mem (List.mem_filter.2 ⟨hσ, ?_⟩))
    · intro y hy
      obtain ⟨x, -, rfl⟩ := List.mem_map.1 hy
      exact rowLaw_nonneg _
    · rw [decide_eq_true_eq]
      exact map_par_congr (hpar v hv) he
  · have h3 : ∀ᶠ n : ℕ in atTop, ∀ σ ∈ (worlds dom vs x₀).toFinset, |(cell vs (fun i : Fin n => X i ω) σ : ℝ) / n - rowLaw P X vs σ| ≤ δ := by
      rw [Filter.eventually_all_finset]
      intro σ hσ
      have := (hω2 σ hσ).eventually (Metric.closedBall_mem_nhds _ hδ)
      filter_upwards [this] with n hn
      rwa [Real.dist_eq] at hn
    obtain ⟨n₀, hn₀⟩ := eventually_atTop.1 h3
    exact ⟨n₀, fun n hn σ hσ => hn₀ n hn σ (List.mem_toFinset.2 hσ)⟩

end

end Verif.Consistent
