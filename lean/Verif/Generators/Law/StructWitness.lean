import Verif.Generators.Law.ErdosMean
import Verif.Generators.Law.Barabasi
import Verif.Generators.Law.Witness
import Mathlib.MeasureTheory.Measure.Count
import Mathlib.MeasureTheory.Measure.Prod

/-!
# The law of random structures: concrete cases (C124)
-/

namespace Verif.Generators.StructWitness

open MeasureTheory ProbabilityTheory Verif.Generators Verif.Generators.LawWitness
open scoped ENNReal

theorem clamp_mem (x : ℝ) : 0 ≤ clamp x ∧ clamp x < 1 := by
  unfold clamp
  split
  · assumption
  · norm_num

/-- What is made of a uniform number. -/
noncomputable def shape {n : ℕ} (m : ℕ) : StructIx n → ℝ → ℝ
  | .pick i _ => fun u => (⌊clamp u * bagSize m i⌋₊ : ℝ)
  | _ => clamp

theorem measurable_shape {n : ℕ} (m : ℕ) (i : StructIx n) : Measurable (shape m i) := by
  cases i with
  | pick i k =>
    have h : Measurable fun u : ℝ => ⌊clamp u * bagSize m i⌋₊ := Nat.measurable_floor.comp (measurable_clamp.mul_const _)
    exact (measurable_from_top (f := fun k : ℕ => (k : ℝ))).comp h
  | _ => exact measurable_clamp

/-- Random numbers made of uniform ones and an order. -/
noncomputable def draws {n : ℕ} (m : ℕ) (ω : (StructIx n → ℝ) × Equiv.Perm (Fin n)) : Draws ℝ n :=
  { rand := fun i j => clamp (ω.1 (.rand i j))
    pick := fun i k => ⌊clamp (ω.1 (.pick i k)) * bagSize m i⌋₊
    perm := ω.2
    unif := fun i j => clamp (ω.1 (.unif i j))
    sign := fun i j => clamp (ω.1 (.sign i j)) }

/-- There are such random numbers. -/
theorem exists_draws (n m : ℕ) : ∃ (Ω : Type) (_ : MeasurableSpace Ω) (P : Measure Ω) (D : Ω → Draws ℝ n),
    IsProbabilityMeasure P ∧ RandomStructure m P D := by
  letI : MeasurableSpace (Equiv.Perm (Fin n)) := ⊤
  haveI : MeasurableSingletonClass (Equiv.Perm (Fin n)) := ⟨fun _ => trivial⟩
  let Q : Measure (Equiv.Perm (Fin n)) := (n.factorial : ℝ≥0∞)⁻¹ • Measure.count
  have hfac : (n.factorial : ℝ≥0∞) ≠ 0 := by exact_mod_cast Nat.factorial_ne_zero n
  have hQ : ∀ σ, Q {σ} = (n.factorial : ℝ≥0∞)⁻¹ := by
    intro σ
    simp [Q]
  haveI hQp : IsProbabilityMeasure Q := by
    constructor
    have : (Measure.count : Measure (Equiv.Perm (Fin n))) Set.univ = n.factorial := by
      rw [← Finset.coe_univ, Measure.count_apply_finset, Finset.card_univ, Fintype.card_perm, Fintype.card_fin]
    simp only [Q, Measure.smul_apply, this, smul_eq_mul]
    exact ENNReal.inv_mul_cancel hfac (ENNReal.natCast_ne_top _)
  let μ : Measure (StructIx n → ℝ) := Measure.infinitePi fun _ => uniformLaw
  let P := μ.prod Q
  have hfst : P.map Prod.fst = μ := by
    rw [Measure.map_fst_prod]
    simp
  have hval : ∀ i, (fun ω : (StructIx n → ℝ) × Equiv.Perm (Fin n) => (draws m ω).value i) = fun ω => shape m i (ω.1 i) := by
    intro i
    cases i <;> rfl
  have hmeas : ∀ i, Measurable fun ω : (StructIx n → ℝ) × Equiv.Perm (Fin n) => (draws m ω).value i := by
    intro i
    rw [hval]
    exact (measurable_shape m i).comp ((measurable_pi_apply i).comp measurable_fst)
  have hlaw : ∀ i, P.map (fun ω => (draws m ω).value i) = uniformLaw.map (shape m i) := by
    intro i
    rw [hval, show (fun ω : (StructIx n → ℝ) × Equiv.Perm (Fin n) => shape m i (ω.1 i)) = shape m i ∘ (fun x : StructIx n → ℝ => x i) ∘ Prod.fst from rfl,
      ← Measure.map_map (measurable_shape m i) ((measurable_pi_apply i).comp measurable_fst),
      ← Measure.map_map (measurable_pi_apply i) measurable_fst, hfst, Measure.infinitePi_map_eval]
  have hind : iIndepFun (fun i ω => (draws m ω).value i) P := by
    rw [iIndepFun_iff_map_fun_eq_infinitePi_map hmeas]
    have h1 : iIndepFun (fun i (x : StructIx n → ℝ) => shape m i (x i)) μ := iIndepFun_infinitePi (measurable_shape m)
    have hms : ∀ i, Measurable fun x : StructIx n → ℝ => shape m i (x i) := fun i => (measurable_shape m i).comp (measurable_pi_apply i)
    have h2 := h1.map_fun_eq_infinitePi_map hms
    have h3 : ∀ i, P.map (fun ω => (draws m ω).value i) = μ.map fun x => shape m i (x i) := by
      intro i
      rw [hval, show (fun ω : (StructIx n → ℝ) × Equiv.Perm (Fin n) => shape m i (ω.1 i)) =
        (fun x : StructIx n → ℝ => shape m i (x i)) ∘ Prod.fst from rfl,
        ← Measure.map_map (hms i) measurable_fst, hfst]
    simp only [h3]
    rw [← h2]
    have h4 : (fun (ω : (StructIx n → ℝ) × Equiv.Perm (Fin n)) i => (draws m ω).value i) = (fun (x : StructIx n → ℝ) i => shape m i (x i)) ∘ Prod.fst := by
      funext ω i
      exact congrFun (hval i) ω
    rw [h4, ← Measure.map_map (measurable_pi_lambda _ hms) measurable_fst, hfst]
  refine ⟨_, inferInstance, P, draws m, inferInstance, ?_⟩
  have hperm : ∀ σ, {ω : (StructIx n → ℝ) × Equiv.Perm (Fin n) | (draws m ω).perm = σ} = Set.univ ×ˢ {σ} := by
    intro σ
    ext ω
    simp [draws]
  refine ⟨fun ω => ⟨fun i j => clamp_mem _, fun i j => clamp_mem _⟩, hmeas, ?_, ?_, ?_, ?_, ?_, ?_, hind, ?_⟩
  · intro σ
    rw [hperm]
    exact MeasurableSet.univ.prod (measurableSet_singleton σ)
  · intro i j
    exact (hlaw (.rand i j)).trans clamp_law
  · intro i j
    exact (hlaw (.unif i j)).trans clamp_law
  · intro i j
    exact (hlaw (.sign i j)).trans clamp_law
  · intro i k x hx
    have hb : (0 : ℝ) < bagSize m i := by
      have : 0 < bagSize m i := by unfold bagSize; omega
      exact_mod_cast this
    have e : {ω : (StructIx n → ℝ) × Equiv.Perm (Fin n) | (draws m ω).pick i k = x} =
        (fun ω => (draws m ω).value (.pick i k)) ⁻¹' {(x : ℝ)} := by
      ext ω
      simp [Draws.value]
    rw [e, ← Measure.map_apply (hmeas _) (measurableSet_singleton _), hlaw,
      Measure.map_apply (measurable_shape m _) (measurableSet_singleton _)]
    have e2 : uniformLaw (shape m (.pick i k : StructIx n) ⁻¹' {(x : ℝ)}) = uniformLaw (Set.Ico ((x : ℝ) / bagSize m i) ((x + 1) / bagSize m i)) := by
      apply measure_congr
      filter_upwards [uniformLaw_Ioo] with u hu
      apply propext
      change (⌊clamp u * bagSize m i⌋₊ : ℝ) = x ↔ _ ∧ _
      have hc : clamp u = u := by
        rw [clamp, if_pos ⟨hu.1.le, hu.2⟩]
      rw [hc, Nat.cast_inj, Nat.floor_eq_iff (mul_nonneg hu.1.le hb.le), div_le_iff₀ hb, lt_div_iff₀ hb]
    have hx1 : (x : ℝ) + 1 ≤ bagSize m i := by exact_mod_cast hx
    rw [e2, uniformLaw_Ico (by positivity) (by gcongr; linarith) ((div_le_one hb).2 hx1),
      show ((x : ℝ) + 1) / bagSize m i - x / bagSize m i = (bagSize m i : ℝ)⁻¹ by field_simp; ring,
      ENNReal.ofReal_inv_of_pos hb, ENNReal.ofReal_natCast]
  · intro σ
    rw [hperm, Measure.prod_prod, hQ]
    simp
  · intro σ A hA
    have hA' : MeasurableSet ((fun (x : StructIx n → ℝ) i => shape m i (x i)) ⁻¹' A) :=
      (measurable_pi_lambda _ fun i => (measurable_shape m i).comp (measurable_pi_apply i)) hA
    have e : {ω : (StructIx n → ℝ) × Equiv.Perm (Fin n) | (draws m ω).value ∈ A} =
        ((fun (x : StructIx n → ℝ) i => shape m i (x i)) ⁻¹' A) ×ˢ Set.univ := by
      ext ω
      have h4 : (draws m ω).value = fun i => shape m i (ω.1 i) := funext fun i => congrFun (hval i) ω
      simp [h4]
    rw [hperm, e, Set.prod_inter_prod, Measure.prod_prod, Measure.prod_prod, Measure.prod_prod]
    simp [mul_comm]

theorem weightLaw_univ (a b : ℝ) : weightLaw a b Set.univ = 1 := by
  unfold weightLaw
  simp [ENNReal.inv_two_add_inv_two]

/-- Three nodes of degree 1: the graph with the only edge `0 → 1` has probability 1/16. -/
example : ∃ (Ω : Type) (_ : MeasurableSpace Ω) (P : Measure Ω) (D : Ω → Draws ℝ 3), IsProbabilityMeasure P ∧ RandomStructure 1 P D ∧
    P {ω | ∃ g, generateStructure 3 1 "erdos-renyi" (1 / 2) 1 (D ω) = .ok g ∧ Shows g {((0 : Fin 3), (1 : Fin 3))} fun _ => Set.univ} =
      ENNReal.ofReal (1 / 16) := by
  obtain ⟨Ω, _, P, D, hP, hD⟩ := exists_draws 3 1
  refine ⟨Ω, _, P, D, hP, hD, ?_⟩
  rw [erdos_law hD (by norm_num) (by norm_num) (by norm_num) (by norm_num) (by norm_num [abs_of_pos]) _ _ (fun _ _ => MeasurableSet.univ)]
  have ho : orders {((0 : Fin 3), (1 : Fin 3))} = 3 := by
    rw [← card_backward]
    have := card_half (n := 3) (i := 0) (j := 1) (by decide)
    simp only [Finset.mem_singleton, forall_eq]
    simp only [Nat.factorial] at this
    omega
  rw [ho]
  simp only [weightLaw_univ, Finset.prod_const_one, mul_one, Finset.card_singleton]
  have h3 : ((3 : ℕ) : ℝ≥0∞) / (Nat.factorial 3 : ℕ) = ENNReal.ofReal (1 / 2) := by
    rw [← ENNReal.ofReal_natCast, ← ENNReal.ofReal_natCast, ← ENNReal.ofReal_div_of_pos (by norm_num [Nat.factorial])]
    norm_num [Nat.factorial]
  rw [h3, ← ENNReal.ofReal_pow (by norm_num), ← ENNReal.ofReal_pow (by norm_num), ← ENNReal.ofReal_mul (by norm_num), ← ENNReal.ofReal_mul (by norm_num)]
  norm_num [Nat.choose]

/-- Four nodes of degree 2: every node but the first attaches once, and the rounded half of the degree is 1. -/
example : pyRound ((2 : ℝ) / 2) = (1 : ℕ) := by
  norm_num [pyRound]

/-- All attach to the first node. -/
def star : Fin 4 → Fin 1 → Fin 4 := fun _ _ => 0

/-- Every node attaches to the one before it. -/
def chain : Fin 4 → Fin 1 → Fin 4 := fun i _ => if i = 0 then 0 else i - 1

theorem star_attaches : Attaches star := by unfold Attaches star; decide

theorem chain_attaches : Attaches chain := by unfold Attaches chain; decide

/-- The first node is preferred: 1 · 2/3 · 3/5. -/
theorem star_law : attachLaw star = ENNReal.ofReal (2 / 5) := by
  have h : (Finset.univ : Finset (Fin 4 × Fin 1)).filter (fun c => (c.1 : ℕ) ≠ 0) = {(1, 0), (2, 0), (3, 0)} := by decide
  have h1 : attached star 1 0 = 0 := by decide
  have h2 : attached star 2 0 = 1 := by decide
  have h3 : attached star 3 0 = 2 := by decide
  unfold attachLaw
  rw [h, Finset.prod_insert (by decide), Finset.prod_insert (by decide), Finset.prod_singleton]
  dsimp only
  rw [h1, h2, h3]
  simp only [← ENNReal.ofReal_natCast]
  rw [← ENNReal.ofReal_div_of_pos (by norm_num [bagSize]), ← ENNReal.ofReal_div_of_pos (by norm_num [bagSize]),
    ← ENNReal.ofReal_div_of_pos (by norm_num [bagSize]), ← ENNReal.ofReal_mul (by positivity), ← ENNReal.ofReal_mul (by positivity)]
  norm_num [bagSize]

/-- 1 · 1/3 · 1/5. -/
theorem chain_law : attachLaw chain = ENNReal.ofReal (1 / 15) := by
  have h : (Finset.univ : Finset (Fin 4 × Fin 1)).filter (fun c => (c.1 : ℕ) ≠ 0) = {(1, 0), (2, 0), (3, 0)} := by decide
  have h1 : attached chain 1 0 = 0 := by decide
  have h2 : attached chain 2 0 = 0 := by decide
  have h3 : attached chain 3 0 = 0 := by decide
  unfold attachLaw
  rw [h, Finset.prod_insert (by decide), Finset.prod_insert (by decide), Finset.prod_singleton]
  dsimp only
  rw [h1, h2, h3]
  simp only [← ENNReal.ofReal_natCast]
  rw [← ENNReal.ofReal_div_of_pos (by norm_num [bagSize]), ← ENNReal.ofReal_div_of_pos (by norm_num [bagSize]),
    ← ENNReal.ofReal_div_of_pos (by norm_num [bagSize]), ← ENNReal.ofReal_mul (by positivity), ← ENNReal.ofReal_mul (by positivity)]
  norm_num [bagSize]

end Verif.Generators.StructWitness
