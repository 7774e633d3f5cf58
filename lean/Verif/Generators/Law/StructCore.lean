import Verif.Generators.Props
import Verif.Generators.Law.StructSpec
import Verif.Generators.Law.Blocks

/-!
# The law of random structures: what all graph types have in common (C124)
-/

namespace Verif.Generators

open MeasureTheory ProbabilityTheory Verif.Notears
open scoped ENNReal

variable {n m : ℕ} {Ω : Type} [MeasurableSpace Ω] {P : Measure Ω} [IsProbabilityMeasure P] {D : Ω → Draws ℝ n}

/-- The weight as a function of the random numbers. -/
noncomputable def wOf (a b : ℝ) (x : StructIx n → ℝ) (c : Fin n × Fin n) : ℝ :=
  if x (.sign c.1 c.2) < 1 / 2 then (a + (b - a) * x (.unif c.1 c.2)) * -1 else a + (b - a) * x (.unif c.1 c.2)

theorem edgeWeights_eq (a b : ℝ) (r : Draws ℝ n) (i j : Fin n) : edgeWeights a b r i j = wOf a b r.value (i, j) := rfl

theorem measurable_wOf (a b : ℝ) (c : Fin n × Fin n) : Measurable fun x : StructIx n → ℝ => wOf a b x c := by
  unfold wOf
  exact Measurable.ite (measurableSet_lt (measurable_pi_apply _) measurable_const) (by fun_prop) (by fun_prop)

/-- The law of one weight. -/
theorem prob_weight (hD : RandomStructure m P D) (a b : ℝ) (c : Fin n × Fin n) {B : Set ℝ} (hB : MeasurableSet B) :
    P {ω | wOf a b (D ω).value c ∈ B} = weightLaw a b B := by
  have key : ∀ (A : Set ℝ) (_ : MeasurableSet A) (C : Set ℝ) (_ : MeasurableSet C),
      P {ω | (D ω).sign c.1 c.2 ∈ A ∧ (D ω).unif c.1 c.2 ∈ C} = uniformLaw A * uniformLaw C := by
    intro A hA C hC
    have hind : IndepFun (fun ω => (D ω).value (.sign c.1 c.2)) (fun ω => (D ω).value (.unif c.1 c.2)) P :=
      hD.indep.indepFun (by simp)
    have := hind.measure_inter_preimage_eq_mul A C hA hC
    rw [← Measure.map_apply (hD.measurable _) hA, ← Measure.map_apply (hD.measurable _) hC] at this
    have e1 := hD.sign c.1 c.2
    have e2 := hD.unif c.1 c.2
    change P.map (fun ω => (D ω).value (.sign c.1 c.2)) = uniformLaw at e1
    change P.map (fun ω => (D ω).value (.unif c.1 c.2)) = uniformLaw at e2
    rw [e1, e2] at this
    exact this
  have hm1 : MeasurableSet {u : ℝ | a + (b - a) * u ∈ B} := (by fun_prop : Measurable fun u : ℝ => a + (b - a) * u) hB
  have hm2 : MeasurableSet {u : ℝ | -(a + (b - a) * u) ∈ B} := (by fun_prop : Measurable fun u : ℝ => -(a + (b - a) * u)) hB
  have hsplit : {ω | wOf a b (D ω).value c ∈ B} =
      {ω | (D ω).sign c.1 c.2 ∈ Set.Ici (1 / 2) ∧ (D ω).unif c.1 c.2 ∈ {u : ℝ | a + (b - a) * u ∈ B}} ∪
      {ω | (D ω).sign c.1 c.2 ∈ Set.Iio (1 / 2) ∧ (D ω).unif c.1 c.2 ∈ {u : ℝ | -(a + (b - a) * u) ∈ B}} := by
    ext ω
    simp only [Set.mem_ofPred_eq, Set.mem_union, Set.mem_Ici, Set.mem_Iio]
    unfold wOf
    by_cases h : (D ω).value (.sign c.1 c.2) < 1 / 2
    · rw [if_pos h]
      have h' : (D ω).sign c.1 c.2 < 1 / 2 := h
      simp only [h', true_and, not_le.2 h', false_and, false_or, mul_neg, mul_one]
      rfl
    · rw [if_neg h]
      have h' : 1 / 2 ≤ (D ω).sign c.1 c.2 := not_lt.1 h
      simp only [h', true_and, not_lt.2 h', false_and, or_false]
      rfl
  have hmeas : MeasurableSet {ω | (D ω).sign c.1 c.2 ∈ Set.Iio (1 / 2) ∧ (D ω).unif c.1 c.2 ∈ {u : ℝ | -(a + (b - a) * u) ∈ B}} :=
    ((hD.measurable (.sign c.1 c.2)) measurableSet_Iio).inter ((hD.measurable (.unif c.1 c.2)) hm2)
  rw [hsplit, measure_union _ hmeas, key _ measurableSet_Ici _ hm1, key _ measurableSet_Iio _ hm2,
    uniformLaw_Ici (by norm_num) (by norm_num), uniformLaw_Iio (by norm_num)]
  · have h2 : ENNReal.ofReal (1 - 1 / 2) = 2⁻¹ := by
      rw [show (1 - 1 / 2 : ℝ) = 2⁻¹ by norm_num, ENNReal.ofReal_inv_of_pos (by norm_num)]
      norm_num
    have h3 : ENNReal.ofReal (1 / 2) = 2⁻¹ := by
      rw [show (1 / 2 : ℝ) = 2⁻¹ by norm_num, ENNReal.ofReal_inv_of_pos (by norm_num)]
      norm_num
    rw [h2, h3]
    rfl
  · rw [Set.disjoint_left]
    rintro ω ⟨h1, -⟩ ⟨h2, -⟩
    exact absurd (Set.mem_Ici.1 h1) (not_le.2 h2)

/-- Which graphs are drawn. -/
theorem shows_iff {degree wMin wMax : ℝ} {ty : String} {r : Draws ℝ n} (hr : r.Uniform) (hn : 2 ≤ n) (h0 : wMin ≠ 0) (hw : |wMin| ≤ |wMax|)
    {f : Matrix (Fin n) (Fin n) ℝ} (hf : edgeFlags degree ty r = .ok f) (G : Finset (Fin n × Fin n)) (B : Fin n × Fin n → Set ℝ) :
    (∃ g, generateStructure n degree ty wMin wMax r = .ok g ∧ Shows g G B) ↔
      (∀ a b, f a b ≠ 0 ↔ (r.perm a, r.perm b) ∈ G) ∧ ∀ c ∈ G, wOf |wMin| |wMax| r.value c ∈ B c := by
  have hgen : ∃ g, generateStructure n degree ty wMin wMax r = .ok g := by
    unfold generateStructure
    rw [if_neg (by omega)]
    dsimp only
    rw [if_neg (not_lt.2 hw), hf]
    exact ⟨_, rfl⟩
  obtain ⟨g, hg⟩ := hgen
  obtain ⟨-, -, f', hf', hgeq⟩ := generateStructure_edges hg
  rw [hf] at hf'
  cases hf'
  have hwne : ∀ i j, edgeWeights |wMin| |wMax| r i j ≠ 0 := by
    intro i j h
    have h1 := (abs_edgeWeights (abs_nonneg wMin) hw hr i j).1
    rw [h, abs_zero] at h1
    exact absurd h1 (not_le.2 (abs_pos.2 h0))
  have hmem : ∀ e, e ∈ g.edges ↔ ∃ i j : Fin n, f (r.perm.symm i) (r.perm.symm j) ≠ 0 ∧
      e = ⟨i, j, edgeWeights |wMin| |wMax| r i j, "unknown"⟩ := by
    intro e
    rw [hgeq, mem_generated]
    constructor
    · rintro ⟨i, j, h1, -, h2⟩; exact ⟨i, j, h1, h2⟩
    · rintro ⟨i, j, h1, h2⟩; exact ⟨i, j, h1, hwne i j, h2⟩
  have hval : (∃ g, generateStructure n degree ty wMin wMax r = .ok g ∧ Shows g G B) ↔ Shows g G B := by
    constructor
    · rintro ⟨g', h1, h2⟩
      rw [hg] at h1
      cases h1
      exact h2
    · exact fun h => ⟨g, hg, h⟩
  rw [hval]
  constructor
  · rintro ⟨h1, h2⟩
    have hin : ∀ i j, f (r.perm.symm i) (r.perm.symm j) ≠ 0 → (i, j) ∈ G ∧ wOf |wMin| |wMax| r.value (i, j) ∈ B (i, j) := by
      intro i j hij
      obtain ⟨c, hc, e1, e2, e3⟩ := h1 _ ((hmem _).2 ⟨i, j, hij, rfl⟩)
      have : c = (i, j) := Prod.ext (Fin.ext e1.symm) (Fin.ext e2.symm)
      subst this
      exact ⟨hc, e3⟩
    have hout : ∀ i j, (i, j) ∈ G → f (r.perm.symm i) (r.perm.symm j) ≠ 0 := by
      intro i j hij
      obtain ⟨e, he, e1, e2⟩ := h2 _ hij
      obtain ⟨i', j', h3, rfl⟩ := (hmem e).1 he
      have h4 : i' = i := Fin.ext e1
      have h5 : j' = j := Fin.ext e2
      subst h4 h5
      exact h3
    refine ⟨fun a b => ⟨fun h => ?_, fun h => ?_⟩, fun c hc => (hin c.1 c.2 (hout _ _ hc)).2⟩
    · refine (hin (r.perm a) (r.perm b) ?_).1
      rwa [Equiv.symm_apply_apply, Equiv.symm_apply_apply]
    · have := hout _ _ h
      rwa [Equiv.symm_apply_apply, Equiv.symm_apply_apply] at this
  · rintro ⟨h1, h2⟩
    constructor
    · intro e he
      obtain ⟨i, j, h3, rfl⟩ := (hmem e).1 he
      have h4 : (i, j) ∈ G := by simpa using (h1 _ _).1 h3
      exact ⟨(i, j), h4, rfl, rfl, h2 _ h4⟩
    · rintro ⟨i, j⟩ hc
      exact ⟨_, (hmem _).2 ⟨i, j, (h1 _ _).2 (by simpa using hc), rfl⟩, rfl, rfl⟩

/-- The law of the graph and its weights, in terms of that of the flags. -/
theorem law_general (hD : RandomStructure m P D) {degree wMin wMax : ℝ} {ty : String} (hn : 2 ≤ n) (h0 : wMin ≠ 0) (hw : |wMin| ≤ |wMax|)
    {F : (StructIx n → ℝ) → Fin n → Fin n → Prop}
    (hF : ∀ ω, ∃ f, edgeFlags degree ty (D ω) = .ok f ∧ ∀ a b, f a b ≠ 0 ↔ F (D ω).value a b)
    (S : Finset (StructIx n)) (hS : ∀ i j, .unif i j ∉ S ∧ .sign i j ∉ S) (hdep : ∀ x y, (∀ i ∈ S, x i = y i) → ∀ a b, F x a b → F y a b)
    (hmeas : ∀ a b, MeasurableSet {x | F x a b}) (G : Finset (Fin n × Fin n)) (B : Fin n × Fin n → Set ℝ) (hB : ∀ c ∈ G, MeasurableSet (B c)) :
    P {ω | ∃ g, generateStructure n degree ty wMin wMax (D ω) = .ok g ∧ Shows g G B} =
      (∑ σ : Equiv.Perm (Fin n), (n.factorial : ℝ≥0∞)⁻¹ * P {ω | ∀ a b, F (D ω).value a b ↔ (σ a, σ b) ∈ G}) *
        ∏ c ∈ G, weightLaw |wMin| |wMax| (B c) := by
  classical
  let A : Equiv.Perm (Fin n) → Set (StructIx n → ℝ) := fun σ => {x | ∀ a b, F x a b ↔ (σ a, σ b) ∈ G}
  let W : Fin n × Fin n → Set (StructIx n → ℝ) := fun c => {x | wOf |wMin| |wMax| x c ∈ B c}
  have hA : ∀ σ, MeasurableSet (A σ) := by
    intro σ
    have : A σ = ⋂ a, ⋂ b, {x | F x a b ↔ (σ a, σ b) ∈ G} := by
      ext x
      simp [A]
    rw [this]
    refine MeasurableSet.iInter fun a => MeasurableSet.iInter fun b => ?_
    by_cases h : (σ a, σ b) ∈ G
    · have e : {x | F x a b ↔ (σ a, σ b) ∈ G} = {x | F x a b} := by ext x; simp [h]
      rw [e]
      exact hmeas a b
    · have e : {x | F x a b ↔ (σ a, σ b) ∈ G} = {x | F x a b}ᶜ := by ext x; simp [h]
      rw [e]
      exact (hmeas a b).compl
  have hW : ∀ c ∈ G, MeasurableSet (W c) := fun c hc => (measurable_wOf _ _ c) (hB c hc)
  have hev : {ω | ∃ g, generateStructure n degree ty wMin wMax (D ω) = .ok g ∧ Shows g G B} =
      ⋃ σ ∈ (Finset.univ : Finset (Equiv.Perm (Fin n))), {ω | (D ω).perm = σ} ∩ {ω | (D ω).value ∈ A σ ∩ ⋂ c ∈ G, W c} := by
    ext ω
    obtain ⟨f, hf, hff⟩ := hF ω
    rw [Set.mem_ofPred_eq, shows_iff (hD.uniform ω) hn h0 hw hf]
    simp only [hff, Set.mem_iUnion, Finset.mem_univ, Set.mem_inter_iff, Set.mem_ofPred_eq, exists_true_left, Set.mem_iInter, A, W]
    constructor
    · intro h
      exact ⟨_, rfl, h.1, h.2⟩
    · rintro ⟨σ, rfl, h⟩
      exact h
  rw [hev, measure_biUnion_finset]
  · rw [Finset.sum_mul]
    apply Finset.sum_congr rfl
    intro σ _
    have hAm : MeasurableSet (A σ ∩ ⋂ c ∈ G, W c) := (hA σ).inter (Finset.measurableSet_biInter _ hW)
    rw [hD.indep_perm σ _ hAm, hD.perm σ, mul_assoc]
    congr 1
    let blocks : Option (Fin n × Fin n) → Finset (StructIx n) := fun o => match o with
      | none => S
      | some c => {.unif c.1 c.2, .sign c.1 c.2}
    let events : Option (Fin n × Fin n) → Set (StructIx n → ℝ) := fun o => match o with
      | none => A σ
      | some c => W c
    have hpb := prob_blocks (P := P) hD.measurable hD.indep (insert none (G.image some)) blocks ?_ events ?_ ?_
    · have hno : (none : Option (Fin n × Fin n)) ∉ G.image some := by simp
      rw [Finset.prod_insert hno, Finset.prod_image (fun _ _ _ _ h => Option.some_injective _ h)] at hpb
      have e1 : {ω | (D ω).value ∈ A σ ∩ ⋂ c ∈ G, W c} =
          {ω | ∀ b ∈ insert none (G.image some), (fun i => (D ω).value i) ∈ events b} := by
        ext ω
        simp only [Set.mem_ofPred_eq, Finset.forall_mem_insert, Finset.forall_mem_image, Set.mem_inter_iff, Set.mem_iInter]
        exact Iff.rfl
      rw [e1, hpb]
      congr 1
      apply Finset.prod_congr rfl
      intro c hc
      exact prob_weight hD _ _ c (hB c hc)
    · intro o ho o' ho' hne
      cases o with
      | none =>
        cases o' with
        | none => exact absurd rfl hne
        | some c => simp [blocks, hS c.1 c.2]
      | some c =>
        cases o' with
        | none => simp [blocks, hS c.1 c.2]
        | some c' =>
          have hcc : c ≠ c' := fun h => hne (h ▸ rfl)
          rw [Finset.disjoint_left]
          simp only [blocks, Finset.mem_insert, Finset.mem_singleton]
          rintro x (rfl | rfl) (h | h)
          · injection h with h1 h2; exact hcc (Prod.ext h1 h2)
          · cases h
          · cases h
          · injection h with h1 h2; exact hcc (Prod.ext h1 h2)
    · intro o ho
      cases o with
      | none => exact hA σ
      | some c => exact hW c (by simpa using ho)
    · intro o _ x y hxy hx
      cases o with
      | none =>
        intro a b
        rw [← hx a b]
        exact ⟨hdep y x (fun i hi => (hxy i hi).symm) a b, hdep x y hxy a b⟩
      | some c =>
        have h1 := hxy (.unif c.1 c.2) (by simp [blocks])
        have h2 := hxy (.sign c.1 c.2) (by simp [blocks])
        change wOf |wMin| |wMax| y c ∈ B c
        have h3 : wOf |wMin| |wMax| y c = wOf |wMin| |wMax| x c := by
          unfold wOf
          rw [h1, h2]
        rw [h3]
        exact hx
  · intro σ _ σ' _ hne
    rw [Function.onFun, Set.disjoint_left]
    rintro ω ⟨h1, -⟩ ⟨h2, -⟩
    exact hne (h1.symm.trans h2)
  · intro σ _
    refine (hD.measurable_perm σ).inter ?_
    exact (measurable_pi_lambda _ hD.measurable) ((hA σ).inter (Finset.measurableSet_biInter _ hW))

end Verif.Generators
