import Verif.Generators.Law.DynamicMean
import Verif.Generators.Law.StructWitness

/-!
# The law of random dynamic structures: concrete cases (C152)
-/

namespace Verif.Generators.DynLawWitness

open MeasureTheory ProbabilityTheory Verif.Generators Verif.Generators.LawWitness Verif.Generators.StructWitness
open scoped ENNReal

/-- Random numbers for the past, made of uniform ones. -/
noncomputable def past {n p : ℕ} (x : InterIx n p → ℝ) : InterDraws ℝ where
  rand k j := if h : k < p * n ∧ j < n then
    clamp (x (.rand ⟨k / n, Nat.div_lt_of_lt_mul (by rw [Nat.mul_comm]; exact h.1)⟩ ⟨k % n, Nat.mod_lt _ (by omega)⟩ ⟨j, h.2⟩)) else 0
  unif l i j := if h : l < p ∧ i < n ∧ j < n then clamp (x (.unif ⟨l, h.1⟩ ⟨i, h.2.1⟩ ⟨j, h.2.2⟩)) else 0
  sign l i j := if h : l < p ∧ i < n ∧ j < n then clamp (x (.sign ⟨l, h.1⟩ ⟨i, h.2.1⟩ ⟨j, h.2.2⟩)) else 0

theorem past_value {n p : ℕ} (x : InterIx n p → ℝ) (i : InterIx n p) : (past x).value i = clamp (x i) := by
  cases i with
  | rand l i j =>
    have h1 : l.1 * n + i.1 < p * n := by
      have hi := i.2
      calc l.1 * n + i.1 < l.1 * n + n := by omega
        _ = (l.1 + 1) * n := by rw [Nat.succ_mul]
        _ ≤ p * n := Nat.mul_le_mul_right _ l.2
    have hn : 0 < n := by have := i.2; omega
    have h2 : (l.1 * n + i.1) / n = l.1 := by
      rw [Nat.mul_comm, Nat.mul_add_div hn, Nat.div_eq_of_lt i.2, Nat.add_zero]
    have h3 : (l.1 * n + i.1) % n = i.1 := by
      rw [Nat.mul_comm, Nat.mul_add_mod, Nat.mod_eq_of_lt i.2]
    change (if h : _ then _ else _) = _
    rw [dif_pos ⟨h1, j.2⟩]
    simp only [h2, h3]
  | unif l i j =>
    change (if h : _ then _ else _) = _
    rw [dif_pos ⟨l.2, i.2, j.2⟩]
  | sign l i j =>
    change (if h : _ then _ else _) = _
    rw [dif_pos ⟨l.2, i.2, j.2⟩]

theorem past_uniform {n p : ℕ} (x : InterIx n p → ℝ) : (past x).Uniform := by
  constructor
  · intro i j
    simp only [past]
    split_ifs
    · exact clamp_mem _
    · norm_num
  · intro l i j
    simp only [past]
    split_ifs
    · exact clamp_mem _
    · norm_num

/-- Independence is kept by forgetting. -/
theorem iIndepFun_fst {Ω Ω' ι : Type} [MeasurableSpace Ω] [MeasurableSpace Ω'] {P : Measure Ω} [IsProbabilityMeasure P] {Q : Measure Ω'}
    {f : Ω' → Ω} (hf : MeasurePreserving f Q P) [IsProbabilityMeasure Q] {X : ι → Ω → ℝ} (hX : ∀ i, Measurable (X i)) (h : iIndepFun X P) :
    iIndepFun (fun i ω => X i (f ω)) Q := by
  have hXf : ∀ i, Measurable fun ω => X i (f ω) := fun i => (hX i).comp hf.measurable
  rw [iIndepFun_iff_map_fun_eq_infinitePi_map hXf]
  have h1 := h.map_fun_eq_infinitePi_map hX
  have h2 : ∀ i, Q.map (fun ω => X i (f ω)) = P.map (X i) := by
    intro i
    rw [← hf.map_eq, Measure.map_map (hX i) hf.measurable]
    rfl
  simp only [h2]
  rw [← h1, ← hf.map_eq, Measure.map_map (measurable_pi_lambda _ hX) hf.measurable]
  rfl

/-- There are such random numbers. -/
theorem exists_dynamic (n m p : ℕ) : ∃ (Ω : Type) (_ : MeasurableSpace Ω) (P : Measure Ω) (D : Ω → Draws ℝ n) (D' : Ω → InterDraws ℝ),
    IsProbabilityMeasure P ∧ RandomDynamic m p P D D' := by
  obtain ⟨Ω, _, P, D, hP, hD⟩ := exists_draws n m
  let μ : Measure (InterIx n p → ℝ) := Measure.infinitePi fun _ => uniformLaw
  have hfst : MeasurePreserving (Prod.fst : Ω × (InterIx n p → ℝ) → Ω) (P.prod μ) P := measurePreserving_fst
  have hsnd : MeasurePreserving (Prod.snd : Ω × (InterIx n p → ℝ) → (InterIx n p → ℝ)) (P.prod μ) μ := measurePreserving_snd
  have hmc : ∀ i : InterIx n p, Measurable fun x : InterIx n p → ℝ => clamp (x i) := fun i => measurable_clamp.comp (measurable_pi_apply i)
  have hval : ∀ x : InterIx n p → ℝ, (past x).value = fun i => clamp (x i) := fun x => funext (past_value x)
  have hval' : ∀ T : Set (InterIx n p → ℝ), {ω : Ω × (InterIx n p → ℝ) | (past ω.2).value ∈ T} = Set.univ ×ˢ {x | (fun i => clamp (x i)) ∈ T} := by
    intro T
    ext ω
    simp [hval]
  have hpre : ∀ S : Set Ω, {ω : Ω × (InterIx n p → ℝ) | ω.1 ∈ S} = S ×ˢ Set.univ := by
    intro S
    ext ω
    simp
  have hprob : ∀ S : Set Ω, (P.prod μ) {ω | ω.1 ∈ S} = P S := by
    intro S
    rw [hpre, Measure.prod_prod, measure_univ, mul_one]
  have hmap : ∀ {X : Ω → ℝ}, Measurable X → (P.prod μ).map (fun ω => X ω.1) = P.map X := by
    intro X hX
    have h1 := Measure.map_map (μ := P.prod μ) hX measurable_fst
    rw [hfst.map_eq] at h1
    exact h1.symm
  refine ⟨Ω × (InterIx n p → ℝ), inferInstance, P.prod μ, fun ω => D ω.1, fun ω => past ω.2, inferInstance, ?_⟩
  refine ⟨⟨fun ω => hD.uniform ω.1, fun i => (hD.measurable i).comp measurable_fst, fun σ => ?_, ?_, ?_, ?_, ?_, ?_, ?_, ?_⟩,
    fun ω => past_uniform _, fun i => ?_, fun i => ?_, ?_, ?_⟩
  · exact measurable_fst (hD.measurable_perm σ)
  · intro i j
    rw [← hD.rand i j]
    exact hmap (hD.measurable (.rand i j))
  · intro i j
    rw [← hD.unif i j]
    exact hmap (hD.measurable (.unif i j))
  · intro i j
    rw [← hD.sign i j]
    exact hmap (hD.measurable (.sign i j))
  · intro i k x hx
    rw [← hD.pick i k x hx]
    exact hprob {ω | (D ω).pick i k = x}
  · intro σ
    rw [← hD.perm σ]
    exact hprob {ω | (D ω).perm = σ}
  · exact iIndepFun_fst hfst hD.measurable hD.indep
  · intro σ A hA
    have h := hD.indep_perm σ A hA
    rw [← hprob, ← hprob {ω | (D ω).perm = σ}, ← hprob {ω | (D ω).value ∈ A}] at h
    exact h
  · simp only [past_value]
    exact (hmc i).comp measurable_snd
  · simp only [past_value]
    rw [show (fun ω : Ω × (InterIx n p → ℝ) => clamp (ω.2 i)) = clamp ∘ (fun x : InterIx n p → ℝ => x i) ∘ Prod.snd from rfl,
      ← Measure.map_map measurable_clamp ((measurable_pi_apply i).comp measurable_snd), ← Measure.map_map (measurable_pi_apply i) measurable_snd,
      hsnd.map_eq, Measure.infinitePi_map_eval]
    exact clamp_law
  · simp only [past_value]
    exact iIndepFun_fst hsnd hmc (iIndepFun_infinitePi (X := fun _ => clamp) fun _ => measurable_clamp)
  · intro σ A T hA hT
    have e1 : ({ω : Ω × (InterIx n p → ℝ) | (D ω.1).perm = σ} ∩ {ω | (D ω.1).value ∈ A}) =
        ({ω | (D ω).perm = σ} ∩ {ω | (D ω).value ∈ A}) ×ˢ Set.univ := by
      ext ω
      simp
    rw [e1, hval', Set.prod_inter_prod, Measure.prod_prod, Measure.prod_prod, Measure.prod_prod]
    simp

/-- Two variables, one lag, with degrees 1: the graph with the edges `0_lag0 → 1_lag0` and `0_lag1 → 0_lag0` has probability 1/32. -/
example : ∃ (Ω : Type) (_ : MeasurableSpace Ω) (P : Measure Ω) (D : Ω → Draws ℝ 2) (D' : Ω → InterDraws ℝ),
    IsProbabilityMeasure P ∧ RandomDynamic 1 1 P D D' ∧
    P {ω | ∃ g, generateDynamic 2 1 ⟨1, 1, "erdos-renyi", "erdos-renyi", 1 / 2, 1, 1 / 2, 1, 1⟩ (D ω) (D' ω) = .ok g ∧
      ShowsDyn g {((0 : Fin 2), (1 : Fin 2))} (fun _ => Set.univ) {((0 : Fin 1), (0 : Fin 2), (0 : Fin 2))} fun _ => Set.univ} =
      ENNReal.ofReal (1 / 32) := by
  obtain ⟨Ω, _, P, D, D', hP, hD⟩ := exists_dynamic 2 1 1
  refine ⟨Ω, _, P, D, D', hP, hD, ?_⟩
  rw [dynamic_law hD (by norm_num) (by norm_num) (by norm_num [abs_of_pos]) (Or.inl rfl) (by norm_num) (by norm_num) rfl (by norm_num)
    (by norm_num) (by norm_num) _ _ (fun _ _ => MeasurableSet.univ) _ _ (fun _ _ => MeasurableSet.univ)]
  rw [erdos_law hD.intra (by norm_num) (by norm_num) (by norm_num) (by norm_num) (by norm_num [abs_of_pos]) _ _ (fun _ _ => MeasurableSet.univ)]
  have ho : orders {((0 : Fin 2), (1 : Fin 2))} = 1 := by
    rw [← card_backward]
    have := card_half (n := 2) (i := 0) (j := 1) (by decide)
    simp only [Finset.mem_singleton, forall_eq]
    simp only [Nat.factorial] at this
    omega
  rw [ho]
  simp only [weightLaw_univ, Finset.prod_const_one, mul_one, Finset.card_singleton]
  have h3 : ((1 : ℕ) : ℝ≥0∞) / (Nat.factorial 2 : ℕ) = ENNReal.ofReal (1 / 2) := by
    rw [← ENNReal.ofReal_natCast, ← ENNReal.ofReal_natCast, ← ENNReal.ofReal_div_of_pos (by norm_num [Nat.factorial])]
    norm_num [Nat.factorial]
  rw [h3, ← ENNReal.ofReal_pow (by norm_num), ← ENNReal.ofReal_pow (by norm_num), ← ENNReal.ofReal_pow (by norm_num),
    ← ENNReal.ofReal_pow (by norm_num), ← ENNReal.ofReal_mul (by norm_num), ← ENNReal.ofReal_mul (by norm_num), ← ENNReal.ofReal_mul (by norm_num),
    ← ENNReal.ofReal_mul (by norm_num)]
  norm_num [Nat.choose]

end Verif.Generators.DynLawWitness
