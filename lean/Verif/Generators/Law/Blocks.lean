import Mathlib.Probability.Independence.Basic

/-!
# Events about disjoint blocks of independent variables (C122)
-/

namespace Verif.Generators

open MeasureTheory ProbabilityTheory Set

variable {Ω ι B : Type} [MeasurableSpace Ω] {P : Measure Ω} [IsProbabilityMeasure P] {X : ι → Ω → ℝ}

open Classical in
/-- The tuple with 0 outside `S`. -/
noncomputable def extendZero (S : Finset ι) (x : S → ℝ) : ι → ℝ := fun i => if h : i ∈ S then x ⟨i, h⟩ else 0

theorem measurable_extendZero (S : Finset ι) : Measurable (extendZero S) := by
  refine measurable_pi_lambda _ fun i => ?_
  by_cases h : i ∈ S
  · simp only [extendZero, h, dite_true]
    exact measurable_pi_apply _
  · simp only [extendZero, h, dite_false]
    exact measurable_const

theorem extendZero_restrict (S : Finset ι) (x : ι → ℝ) : ∀ i ∈ S, extendZero S (fun i : S => x i) i = x i := by
  intro i hi
  simp [extendZero, hi]

/-- Events about disjoint blocks of independent variables are independent. -/
theorem prob_blocks (hX : ∀ i, Measurable (X i)) (hi : iIndepFun X P) (bs : Finset B) (S : B → Finset ι)
    (hS : ∀ b ∈ bs, ∀ b' ∈ bs, b ≠ b' → Disjoint (S b) (S b')) (A : B → Set (ι → ℝ)) (hA : ∀ b ∈ bs, MeasurableSet (A b))
    (hd : ∀ b ∈ bs, ∀ x y : ι → ℝ, (∀ i ∈ S b, x i = y i) → x ∈ A b → y ∈ A b) :
    P {ω | ∀ b ∈ bs, (fun i => X i ω) ∈ A b} = ∏ b ∈ bs, P {ω | (fun i => X i ω) ∈ A b} := by
  classical
  induction bs using Finset.induction_on with
  | empty => simp
  | insert b bs hb ih =>
    rw [Finset.prod_insert hb, ← ih (fun b₁ h1 b₂ h2 => hS b₁ (Finset.mem_insert_of_mem h1) b₂ (Finset.mem_insert_of_mem h2))
      (fun b' h => hA b' (Finset.mem_insert_of_mem h)) fun b' h => hd b' (Finset.mem_insert_of_mem h)]
    have hdis : Disjoint (S b) (bs.biUnion S) := by
      rw [Finset.disjoint_biUnion_right]
      intro b' hb'
      exact hS b (Finset.mem_insert_self _ _) b' (Finset.mem_insert_of_mem hb') fun h => hb (h ▸ hb')
    have h1 := (hi.indepFun_finset (S b) (bs.biUnion S) hdis hX).measure_inter_preimage_eq_mul
      (extendZero (S b) ⁻¹' A b) (extendZero (bs.biUnion S) ⁻¹' {x | ∀ b' ∈ bs, x ∈ A b'})
      ((measurable_extendZero _) (hA b (Finset.mem_insert_self _ _)))
      ((measurable_extendZero _) (by
        have : {x : ι → ℝ | ∀ b' ∈ bs, x ∈ A b'} = ⋂ b' ∈ bs, A b' := by ext; simp
        rw [this]
        exact Finset.measurableSet_biInter _ fun b' h => hA b' (Finset.mem_insert_of_mem h)))
    have e1 : ∀ ω, ω ∈ ((fun ω (i : S b) => X i ω) ⁻¹' (extendZero (S b) ⁻¹' A b)) ↔ (fun i => X i ω) ∈ A b := by
      intro ω
      have h2 := extendZero_restrict (S b) fun i => X i ω
      exact ⟨hd b (Finset.mem_insert_self _ _) _ _ h2, hd b (Finset.mem_insert_self _ _) _ _ fun i hi => (h2 i hi).symm⟩
    have e2 : ∀ ω, ω ∈ ((fun ω (i : bs.biUnion S) => X i ω) ⁻¹' (extendZero (bs.biUnion S) ⁻¹' {x | ∀ b' ∈ bs, x ∈ A b'})) ↔
        ∀ b' ∈ bs, (fun i => X i ω) ∈ A b' := by
      intro ω
      have h2 := extendZero_restrict (bs.biUnion S) fun i => X i ω
      refine forall₂_congr fun b' hb' => ?_
      have h3 : ∀ i ∈ S b', i ∈ bs.biUnion S := fun i hi => Finset.mem_biUnion.2 ⟨b', hb', hi⟩
      exact ⟨hd b' (Finset.mem_insert_of_mem hb') _ _ fun i hi => h2 i (h3 i hi),
        hd b' (Finset.mem_insert_of_mem hb') _ _ fun i hi => (h2 i (h3 i hi)).symm⟩
    have e3 : ((fun ω (i : S b) => X i ω) ⁻¹' (extendZero (S b) ⁻¹' A b)) = {ω | (fun i => X i ω) ∈ A b} := Set.ext e1
    have e4 : ((fun ω (i : bs.biUnion S) => X i ω) ⁻¹' (extendZero (bs.biUnion S) ⁻¹' {x | ∀ b' ∈ bs, x ∈ A b'})) =
        {ω | ∀ b' ∈ bs, (fun i => X i ω) ∈ A b'} := Set.ext e2
    rw [e3, e4] at h1
    refine Eq.trans ?_ h1
    congr 1
    ext ω
    exact Finset.forall_mem_insert _ _ _

end Verif.Generators
