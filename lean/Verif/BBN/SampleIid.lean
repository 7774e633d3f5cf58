import Verif.BBN.SampleMany
import Mathlib.Probability.Independence.Basic
import Mathlib.MeasureTheory.Constructions.BorelSpace.Real

/-!
# C128: the samples of a call of `draw_samples` are independent
-/

namespace Verif.BBN
open Function MeasureTheory ProbabilityTheory

section
variable {V S : Type} [LinearOrder V] [DecidableEq S]
variable {Ω : Type} [MeasurableSpace Ω]

/-- Specification of Python's `random` module: `U k i` is the value of `random.random()` and `pick k i` decides `random.choice` for variable
number `i` of sample number `k`.  The values of `random.random()` are independent of each other and of the choices, and uniform on `[0, 1)`;
nothing is assumed of the distribution of the choices. -/
structure RandomSource (P : Measure Ω) (pick : ℕ → ℕ → Ω → ℕ) (U : ℕ → ℕ → Ω → ℝ) : Prop where
  pick_measurable : ∀ k i, Measurable (pick k i)
  measurable : ∀ k i, Measurable (U k i)
  range : ∀ k i ω, 0 ≤ U k i ω ∧ U k i ω < 1
  uniform : ∀ k i x, 0 ≤ x → x ≤ 1 → P {ω | U k i ω ≤ x} = ENNReal.ofReal x
  indep : iIndepFun (fun (q : ℕ × ℕ) ω => U q.1 q.2 ω) P
  pick_indep : IndepFun (fun ω (q : ℕ × ℕ) => pick q.1 q.2 ω) (fun ω (q : ℕ × ℕ) => U q.1 q.2 ω) P

variable {P : Measure Ω} [IsProbabilityMeasure P] {pick : ℕ → ℕ → Ω → ℕ} {U : ℕ → ℕ → Ω → ℝ}

theorem RandomSource.interval (h : RandomSource P pick U) (k i : ℕ) {lo hi : ℝ} (h0 : 0 ≤ lo) (h1 : lo ≤ hi) (h2 : hi ≤ 1) :
    P (U k i ⁻¹' Set.Ioc lo hi) = ENNReal.ofReal (hi - lo) := by
  have e : U k i ⁻¹' Set.Ioc lo hi = {ω | U k i ω ≤ hi} \ {ω | U k i ω ≤ lo} := by
    ext ω
    rw [Set.mem_preimage, Set.mem_Ioc, Set.mem_sdiff]
    change _ ↔ U k i ω ≤ hi ∧ ¬ U k i ω ≤ lo
    rw [not_le, and_comm]
  have hm : MeasurableSet {ω | U k i ω ≤ lo} := h.measurable k i measurableSet_Iic
  have hsub : {ω | U k i ω ≤ lo} ⊆ {ω | U k i ω ≤ hi} := fun ω (hω : U k i ω ≤ lo) => hω.trans h1
  rw [e, measure_sdiff hsub hm.nullMeasurableSet (measure_ne_top _ _), h.uniform k i hi (h0.trans h1) h2,
    h.uniform k i lo h0 (h1.trans h2), ENNReal.ofReal_sub _ h0]

omit [IsProbabilityMeasure P] in
/-- The random numbers are positive with probability 1. -/
theorem RandomSource.positive (h : RandomSource P pick U) : P {ω | ∃ k i, U k i ω = 0} = 0 := by
  have e : {ω | ∃ k i, U k i ω = 0} = ⋃ k, ⋃ i, {ω | U k i ω ≤ 0} := by
    ext ω
    simp only [Set.mem_iUnion]
    exact ⟨fun ⟨k, i, hz⟩ => ⟨k, i, hz.le⟩, fun ⟨k, i, hz⟩ => ⟨k, i, le_antisymm hz (h.range k i ω).1⟩⟩
  rw [e, measure_iUnion_null_iff]
  intro k
  rw [measure_iUnion_null_iff]
  intro i
  rw [h.uniform k i 0 le_rfl zero_le_one, ENNReal.ofReal_zero]

omit [IsProbabilityMeasure P] in
theorem RandomSource.positive_measurable (h : RandomSource P pick U) : MeasurableSet {ω | ∀ k i, 0 < U k i ω} := by
  have e : {ω | ∀ k i, 0 < U k i ω} = ⋂ k, ⋂ i, U k i ⁻¹' Set.Ioi 0 := by
    ext ω
    simp
  rw [e]
  exact MeasurableSet.iInter fun k => MeasurableSet.iInter fun i => h.measurable k i measurableSet_Ioi

theorem RandomSource.box (h : RandomSource P pick U) {n m : ℕ} {lo hi : ℕ → ℕ → ℝ}
    (hb : ∀ k < n, ∀ i < m, 0 ≤ lo k i ∧ lo k i ≤ hi k i ∧ hi k i ≤ 1) :
    P {ω | ∀ k < n, ∀ i < m, lo k i < U k i ω ∧ U k i ω ≤ hi k i} =
      ∏ k ∈ Finset.range n, ENNReal.ofReal (∏ i ∈ Finset.range m, (hi k i - lo k i)) := by
  have e : {ω | ∀ k < n, ∀ i < m, lo k i < U k i ω ∧ U k i ω ≤ hi k i} =
      ⋂ q ∈ Finset.range n ×ˢ Finset.range m, (fun ω => U q.1 q.2 ω) ⁻¹' Set.Ioc (lo q.1 q.2) (hi q.1 q.2) := by
    ext ω
    simp only [Set.mem_iInter, Finset.mem_product, Finset.mem_range, Set.mem_preimage, Set.mem_Ioc]
    exact ⟨fun hω q hq => hω q.1 hq.1 q.2 hq.2, fun hω k hk i hi' => hω (k, i) ⟨hk, hi'⟩⟩
  rw [e, h.indep.measure_inter_preimage_eq_mul _ (sets := fun q : ℕ × ℕ => Set.Ioc (lo q.1 q.2) (hi q.1 q.2)) fun _ _ => measurableSet_Ioc,
    Finset.prod_product]
  refine Finset.prod_congr rfl fun k hk => ?_
  rw [ENNReal.ofReal_prod_of_nonneg fun i hi' => sub_nonneg.2 (hb k (Finset.mem_range.1 hk) i (Finset.mem_range.1 hi')).2.1]
  refine Finset.prod_congr rfl fun i hi' => ?_
  obtain ⟨b0, b1, b2⟩ := hb k (Finset.mem_range.1 hk) i (Finset.mem_range.1 hi')
  exact h.interval k i b0 b1 b2

variable {nd : Nondet V} {dom : V → List S} {nodes : List (Node V S ℝ)} {x₀ : V → S}

/-- The samples of the call are `σ 0, σ 1, …`. -/
def SamplesAre (nd : Nondet V) (dom : V → List S) (nodes : List (Node V S ℝ)) (ev : List (V × S)) (n : ℕ) (rand : ℕ → ℕ → Draw ℝ)
    (σ : ℕ → V → S) : Prop :=
  ∃ ss, drawSamples nd dom nodes ev n rand = .ok ss ∧ ss.length = n ∧ ∀ k (h : k < ss.length), Agrees ss[k] (σ k)

/-- The event that the samples are given ones is, up to zeros among the random numbers, a union of boxes, one for each way to pick the
variables. -/
theorem samples_event (hnd : nd.Legal) (hN : IsNetwork dom nodes) (hx₀ : ∀ v ∈ nodes.map Node.var, x₀ v ∈ dom v) {ev : List (V × S)}
    (hk : (ev.map Prod.fst).Nodup) (hev : GoodEvidence dom nodes ev) (hpos : 0 < massOf dom nodes x₀ (Agrees ev)) (n : ℕ) (σ : ℕ → V → S)
    (hσ : ∀ k, (∀ v ∈ nodes.map Node.var, σ k v ∈ dom v) ∧ Agrees ev (σ k)) (h : RandomSource P pick U) :
    MeasurableSet {ω | (∀ k i, 0 < U k i ω) ∧ SamplesAre nd dom nodes ev n (fun k i => ⟨pick k i ω, U k i ω⟩) σ} ∧
    P {ω | (∀ k i, 0 < U k i ω) ∧ SamplesAre nd dom nodes ev n (fun k i => ⟨pick k i ω, U k i ω⟩) σ} =
      ∏ k ∈ Finset.range n, ENNReal.ofReal (joint nodes (σ k) / massOf dom nodes x₀ (Agrees ev)) := by
  let m := nodes.length - ev.length
  let ext : (Fin n → Fin m → ℕ) → ℕ → ℕ → ℕ := fun T k i => if hk : k < n then if hi : i < m then T ⟨k, hk⟩ ⟨i, hi⟩ else 0 else 0
  choose lo hi hb hvol hlaw using fun T : Fin n → Fin m → ℕ => draw_samples_law hnd hN hx₀ hk hev hpos n σ hσ (ext T)
  let B : (Fin n → Fin m → ℕ) → Set Ω := fun T => {ω | ∀ (k : Fin n) (i : Fin m), pick k i ω = T k i}
  let C : (Fin n → Fin m → ℕ) → Set Ω := fun T => {ω | ∀ k < n, ∀ i < m, lo T k i < U k i ω ∧ U k i ω ≤ hi T k i}
  have hBm : ∀ T, MeasurableSet (B T) := by
    intro T
    have e : B T = ⋂ k : Fin n, ⋂ i : Fin m, pick k i ⁻¹' {T k i} := by
      ext ω
      simp [B]
    rw [e]
    exact MeasurableSet.iInter fun k => MeasurableSet.iInter fun i => h.pick_measurable k i (measurableSet_singleton _)
  have hCm : ∀ T, MeasurableSet (C T) := by
    intro T
    have e : C T = ⋂ k ∈ Finset.range n, ⋂ i ∈ Finset.range m, U k i ⁻¹' Set.Ioc (lo T k i) (hi T k i) := by
      ext ω
      simp [C]
    rw [e]
    exact Finset.measurableSet_biInter _ fun k _ => Finset.measurableSet_biInter _ fun i _ => h.measurable k i measurableSet_Ioc
  have hset : {ω | (∀ k i, 0 < U k i ω) ∧ SamplesAre nd dom nodes ev n (fun k i => ⟨pick k i ω, U k i ω⟩) σ} =
      {ω | ∀ k i, 0 < U k i ω} ∩ ⋃ T, B T ∩ C T := by
    ext ω
    refine and_congr_right fun hω => ?_
    have hT : ∀ T, ω ∈ B T → (SamplesAre nd dom nodes ev n (fun k i => ⟨pick k i ω, U k i ω⟩) σ ↔ ω ∈ C T) := by
      intro T hBT
      obtain ⟨ss, s1, s2, s3⟩ := hlaw T (fun k i => U k i ω) fun k i => ⟨hω k i, (h.range k i ω).2.le⟩
      have e : drawSamples nd dom nodes ev n (fun k i => ⟨pick k i ω, U k i ω⟩) = .ok ss := by
        rw [← s1]
        refine drawMany_congr fun k hk' i hi' => ?_
        have : ext T k i = pick k i ω := by
          simp only [ext, dif_pos hk', dif_pos (show i < m from hi')]
          exact (hBT ⟨k, hk'⟩ ⟨i, hi'⟩).symm
        rw [this]
      constructor
      · rintro ⟨ss', t1, t2, t3⟩
        rw [e] at t1
        cases t1
        exact s3.1 t3
      · intro hC
        exact ⟨ss, e, s2, s3.2 hC⟩
    rw [Set.mem_iUnion]
    constructor
    · intro hs
      have hself : ω ∈ B fun k i => pick k i ω := fun k i => rfl
      exact ⟨_, hself, (hT _ hself).1 hs⟩
    · rintro ⟨T, hB, hC⟩
      exact (hT T hB).2 hC
  have hmU : MeasurableSet (⋃ T, B T ∩ C T) := MeasurableSet.iUnion fun T => (hBm T).inter (hCm T)
  refine ⟨by rw [hset]; exact h.positive_measurable.inter hmU, ?_⟩
  have hnull : P {ω | ∀ k i, 0 < U k i ω}ᶜ = 0 := by
    refine measure_mono_null ?_ h.positive
    intro ω hω
    have hω : ¬ ∀ k i, 0 < U k i ω := hω
    push Not at hω
    obtain ⟨k, i, hz⟩ := hω
    exact ⟨k, i, le_antisymm hz (h.range k i ω).1⟩
  rw [hset, Set.inter_comm, measure_inter_conull hnull]
  have hdisj : Pairwise (Disjoint on fun T => B T ∩ C T) := by
    intro T T' hTT
    refine Set.disjoint_left.2 fun ω hω hω' => hTT ?_
    funext k i
    rw [← hω.1 k i, hω'.1 k i]
  have hdisjB : Pairwise (Disjoint on B) := by
    intro T T' hTT
    refine Set.disjoint_left.2 fun ω hω hω' => hTT ?_
    funext k i
    rw [← hω k i, hω' k i]
  have hBC : ∀ T, P (B T ∩ C T) = P (B T) * P (C T) := by
    intro T
    have h1 : MeasurableSet {f : ℕ × ℕ → ℕ | ∀ (k : Fin n) (i : Fin m), f (k, i) = T k i} := by
      have e : {f : ℕ × ℕ → ℕ | ∀ (k : Fin n) (i : Fin m), f (k, i) = T k i} = ⋂ k : Fin n, ⋂ i : Fin m, (fun f => f (k, i)) ⁻¹' {T k i} := by
        ext f
        simp
      rw [e]
      exact MeasurableSet.iInter fun k => MeasurableSet.iInter fun i => measurable_pi_apply _ (measurableSet_singleton _)
    have h2 : MeasurableSet {f : ℕ × ℕ → ℝ | ∀ k < n, ∀ i < m, lo T k i < f (k, i) ∧ f (k, i) ≤ hi T k i} := by
      have e : {f : ℕ × ℕ → ℝ | ∀ k < n, ∀ i < m, lo T k i < f (k, i) ∧ f (k, i) ≤ hi T k i} =
          ⋂ k ∈ Finset.range n, ⋂ i ∈ Finset.range m, (fun f => f (k, i)) ⁻¹' Set.Ioc (lo T k i) (hi T k i) := by
        ext f
        simp
      rw [e]
      exact Finset.measurableSet_biInter _ fun k _ => Finset.measurableSet_biInter _ fun i _ => measurable_pi_apply _ measurableSet_Ioc
    exact h.pick_indep.measure_inter_preimage_eq_mul _ _ h1 h2
  have hC : ∀ T, P (C T) = ∏ k ∈ Finset.range n, ENNReal.ofReal (joint nodes (σ k) / massOf dom nodes x₀ (Agrees ev)) := by
    intro T
    rw [h.box (hb T)]
    exact Finset.prod_congr rfl fun k hk' => by rw [hvol T k (Finset.mem_range.1 hk')]
  rw [measure_iUnion hdisj fun T => (hBm T).inter (hCm T)]
  simp only [hBC, hC]
  rw [ENNReal.tsum_mul_right, ← measure_iUnion hdisjB hBm]
  have huniv : (⋃ T, B T) = Set.univ := by
    refine Set.eq_univ_of_forall fun ω => ?_
    exact Set.mem_iUnion.2 ⟨fun k i => pick k i ω, fun k i => rfl⟩
  rw [huniv, measure_univ, one_mul]

/-- **C128**: the samples are independent draws from the conditional distribution given the evidence.  The probability that they are
`σ 0, …, σ (n - 1)` is the product of the conditional probabilities of these assignments. -/
theorem samples_independent (hnd : nd.Legal) (hN : IsNetwork dom nodes) (hx₀ : ∀ v ∈ nodes.map Node.var, x₀ v ∈ dom v) {ev : List (V × S)}
    (hk : (ev.map Prod.fst).Nodup) (hev : GoodEvidence dom nodes ev) (hpos : 0 < massOf dom nodes x₀ (Agrees ev)) (n : ℕ) (σ : ℕ → V → S)
    (hσ : ∀ k, (∀ v ∈ nodes.map Node.var, σ k v ∈ dom v) ∧ Agrees ev (σ k)) (h : RandomSource P pick U) :
    P {ω | SamplesAre nd dom nodes ev n (fun k i => ⟨pick k i ω, U k i ω⟩) σ} =
      ∏ k ∈ Finset.range n, ENNReal.ofReal (joint nodes (σ k) / massOf dom nodes x₀ (Agrees ev)) := by
  rw [← (samples_event hnd hN hx₀ hk hev hpos n σ hσ h).2]
  have hnull : P {ω | ∀ k i, 0 < U k i ω}ᶜ = 0 := by
    refine measure_mono_null ?_ h.positive
    intro ω hω
    have hω : ¬ ∀ k i, 0 < U k i ω := hω
    push Not at hω
    obtain ⟨k, i, hz⟩ := hω
    exact ⟨k, i, le_antisymm hz (h.range k i ω).1⟩
  rw [← measure_inter_conull (t := {ω | ∀ k i, 0 < U k i ω}) hnull]
  congr 1
  ext ω
  exact and_comm

end

end Verif.BBN
