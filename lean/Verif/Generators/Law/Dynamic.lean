import Verif.Generators.DynamicProps
import Verif.Generators.Law.DynamicSpec
import Verif.Generators.Law.ErdosMean
import Verif.Generators.Law.Barabasi

/-!
# The law of random dynamic structures (C152)
-/

namespace Verif.Generators

open MeasureTheory ProbabilityTheory Verif.Notears Verif.Str Verif.Dynotears
open scoped ENNReal

variable {n m p : ℕ} {Ω : Type} [MeasurableSpace Ω] {P : Measure Ω} [IsProbabilityMeasure P] {D : Ω → Draws ℝ n} {D' : Ω → InterDraws ℝ}

/-! ### The present -/

omit [IsProbabilityMeasure P] in
/-- The event that a given structure is drawn for the present is made of events that are independent of the numbers for the past. -/
theorem intra_indep (hD : RandomDynamic m p P D D') {E : Set Ω} {A : Equiv.Perm (Fin n) → Set (StructIx n → ℝ)} (hA : ∀ σ, MeasurableSet (A σ))
    (hE : E = ⋃ σ ∈ (Finset.univ : Finset (Equiv.Perm (Fin n))), {ω | (D ω).perm = σ} ∩ {ω | (D ω).value ∈ A σ})
    {T : Set (InterIx n p → ℝ)} (hT : MeasurableSet T) : P (E ∩ {ω | (D' ω).value ∈ T}) = P E * P {ω | (D' ω).value ∈ T} := by
  have hdis : ∀ (f : Equiv.Perm (Fin n) → Set Ω), (∀ σ, f σ ⊆ {ω | (D ω).perm = σ}) →
      Set.PairwiseDisjoint (↑(Finset.univ : Finset (Equiv.Perm (Fin n)))) f := by
    intro f hf σ _ σ' _ hne
    rw [Function.onFun, Set.disjoint_left]
    intro ω h1 h2
    exact hne ((hf σ h1).symm.trans (hf σ' h2))
  have hm : ∀ σ, MeasurableSet ({ω | (D ω).perm = σ} ∩ {ω | (D ω).value ∈ A σ}) := fun σ =>
    (hD.intra.measurable_perm σ).inter ((measurable_pi_lambda _ hD.intra.measurable) (hA σ))
  have hmT : MeasurableSet {ω | (D' ω).value ∈ T} := (measurable_pi_lambda (fun ω (i : InterIx n p) => (D' ω).value i) hD.measurable) hT
  have h2 : E ∩ {ω | (D' ω).value ∈ T} = ⋃ σ ∈ (Finset.univ : Finset (Equiv.Perm (Fin n))),
      ({ω | (D ω).perm = σ} ∩ {ω | (D ω).value ∈ A σ}) ∩ {ω | (D' ω).value ∈ T} := by
    rw [hE, Set.iUnion₂_inter]
  rw [h2, hE, measure_biUnion_finset (hdis _ fun σ ω h => h.1.1) (fun σ _ => (hm σ).inter hmT),
    measure_biUnion_finset (hdis _ fun σ ω h => h.1) (fun σ _ => hm σ), Finset.sum_mul]
  exact Finset.sum_congr rfl fun σ _ => hD.indep_intra σ _ _ (hA σ) hT

/-- The event that a given structure is drawn. -/
theorem structure_event (hu : ∀ ω, (D ω).Uniform) {degree wMin wMax : ℝ} {ty : String} (hn : 2 ≤ n) (h0 : wMin ≠ 0) (hw : |wMin| ≤ |wMax|)
    {F : (StructIx n → ℝ) → Fin n → Fin n → Prop}
    (hF : ∀ ω, ∃ f, edgeFlags degree ty (D ω) = .ok f ∧ ∀ a b, f a b ≠ 0 ↔ F (D ω).value a b)
    (hmeas : ∀ a b, MeasurableSet {x | F x a b}) (G : Finset (Fin n × Fin n)) (B : Fin n × Fin n → Set ℝ) (hB : ∀ c ∈ G, MeasurableSet (B c)) :
    ∃ A : Equiv.Perm (Fin n) → Set (StructIx n → ℝ), (∀ σ, MeasurableSet (A σ)) ∧
      {ω | ∃ g, generateStructure n degree ty wMin wMax (D ω) = .ok g ∧ Shows g G B} =
        ⋃ σ ∈ (Finset.univ : Finset (Equiv.Perm (Fin n))), {ω | (D ω).perm = σ} ∩ {ω | (D ω).value ∈ A σ} := by
  refine ⟨fun σ => {x | ∀ a b, F x a b ↔ (σ a, σ b) ∈ G} ∩ ⋂ c ∈ G, {x | wOf |wMin| |wMax| x c ∈ B c}, fun σ => ?_, ?_⟩
  · refine MeasurableSet.inter ?_ (Finset.measurableSet_biInter _ fun c hc => (measurable_wOf _ _ c) (hB c hc))
    have : {x | ∀ a b, F x a b ↔ (σ a, σ b) ∈ G} = ⋂ a, ⋂ b, {x | F x a b ↔ (σ a, σ b) ∈ G} := by
      ext x
      simp
    rw [this]
    refine MeasurableSet.iInter fun a => MeasurableSet.iInter fun b => ?_
    by_cases h : (σ a, σ b) ∈ G
    · have e : {x | F x a b ↔ (σ a, σ b) ∈ G} = {x | F x a b} := by ext x; simp [h]
      rw [e]
      exact hmeas a b
    · have e : {x | F x a b ↔ (σ a, σ b) ∈ G} = {x | F x a b}ᶜ := by ext x; simp [h]
      rw [e]
      exact (hmeas a b).compl
  · ext ω
    obtain ⟨f, hf, hff⟩ := hF ω
    rw [Set.mem_ofPred_eq, shows_iff (hu ω) hn h0 hw hf]
    simp only [hff, Set.mem_iUnion, Finset.mem_univ, Set.mem_inter_iff, Set.mem_ofPred_eq, exists_true_left, Set.mem_iInter]
    constructor
    · intro h
      exact ⟨_, rfl, h.1, h.2⟩
    · rintro ⟨σ, rfl, h⟩
      exact h

theorem erdos_event (hu : ∀ ω, (D ω).Uniform) {degree wMin wMax : ℝ} (hn : 2 ≤ n) (h0 : wMin ≠ 0) (hw : |wMin| ≤ |wMax|)
    (G : Finset (Fin n × Fin n)) (B : Fin n × Fin n → Set ℝ) (hB : ∀ c ∈ G, MeasurableSet (B c)) :
    ∃ A : Equiv.Perm (Fin n) → Set (StructIx n → ℝ), (∀ σ, MeasurableSet (A σ)) ∧
      {ω | ∃ g, generateStructure n degree "erdos-renyi" wMin wMax (D ω) = .ok g ∧ Shows g G B} =
        ⋃ σ ∈ (Finset.univ : Finset (Equiv.Perm (Fin n))), {ω | (D ω).perm = σ} ∩ {ω | (D ω).value ∈ A σ} := by
  refine structure_event hu hn h0 hw (F := fun x a b => b < a ∧ x (.rand a b) < degree / ((n : ℝ) - 1)) (fun ω => edgeFlags_erdos degree (D ω))
    (fun a b => ?_) G B hB
  by_cases h : b < a
  · have : {x : StructIx n → ℝ | b < a ∧ x (.rand a b) < degree / ((n : ℝ) - 1)} = {x | x (.rand a b) < degree / ((n : ℝ) - 1)} := by
      ext x; simp [h]
    rw [this]
    exact measurableSet_lt (measurable_pi_apply _) measurable_const
  · have : {x : StructIx n → ℝ | b < a ∧ x (.rand a b) < degree / ((n : ℝ) - 1)} = ∅ := by
      ext x; simp [h]
    rw [this]
    exact MeasurableSet.empty

/-- For all three types. -/
theorem any_event (hu : ∀ ω, (D ω).Uniform) {degree wMin wMax : ℝ} {ty : String} (hn : 2 ≤ n) (h0 : wMin ≠ 0) (hw : |wMin| ≤ |wMax|)
    (hty : ty = "erdos-renyi" ∨ ty = "full" ∨ ty = "barabasi-albert" ∧ -1 ≤ degree)
    (G : Finset (Fin n × Fin n)) (B : Fin n × Fin n → Set ℝ) (hB : ∀ c ∈ G, MeasurableSet (B c)) :
    ∃ A : Equiv.Perm (Fin n) → Set (StructIx n → ℝ), (∀ σ, MeasurableSet (A σ)) ∧
      {ω | ∃ g, generateStructure n degree ty wMin wMax (D ω) = .ok g ∧ Shows g G B} =
        ⋃ σ ∈ (Finset.univ : Finset (Equiv.Perm (Fin n))), {ω | (D ω).perm = σ} ∩ {ω | (D ω).value ∈ A σ} := by
  classical
  rcases hty with rfl | rfl | ⟨rfl, hd⟩
  · exact erdos_event hu hn h0 hw G B hB
  · obtain ⟨A, hA, he⟩ := erdos_event (degree := (n : ℝ) - 1) hu hn h0 hw G B hB
    refine ⟨A, hA, ?_⟩
    rw [← he]
    ext ω
    simp only [Set.mem_ofPred_eq, full_eq hn (hu ω)]
  · obtain ⟨k, hk⟩ := Int.eq_ofNat_of_zero_le ((pyRound_half_nonneg degree).2 hd)
    refine structure_event hu hn h0 hw (F := baFlags k) (fun ω => edgeFlags_barabasi (by omega) hk (D ω)) (fun a b => ?_) G B hB
    have e : {x : StructIx n → ℝ | baFlags k x a b} =
        ⋃ d ∈ (Finset.univ : Finset (Fin n → Fin k → Fin n)).filter (fun d => Attaches d ∧ (a : ℕ) ≠ 0 ∧ ∃ k, d a k = b),
          ⋂ c ∈ turns n k, leadsTo d c := by
      ext x
      simp only [baFlags, Set.mem_ofPred_eq, Set.mem_iUnion, Finset.mem_filter, Finset.mem_univ, true_and, exists_prop, Set.mem_iInter]
      constructor
      · rintro ⟨d, h1, h2, h3⟩; exact ⟨d, ⟨h1, h3⟩, h2⟩
      · rintro ⟨d, ⟨h1, h3⟩, h2⟩; exact ⟨d, h1, h2, h3⟩
    rw [e]
    exact Finset.measurableSet_biUnion _ fun d _ => Finset.measurableSet_biInter _ fun c _ => measurableSet_leadsTo d c

/-! ### The past -/

/-- The weight as a function of the random numbers. -/
noncomputable def wInter (a : DynParams ℝ) (x : InterIx n p → ℝ) (c : Fin p × Fin n × Fin n) : ℝ :=
  if x (.sign c.1 c.2.1 c.2.2) < 1 / 2 then (a.wMinInter + (a.wMaxInter - a.wMinInter) * x (.unif c.1 c.2.1 c.2.2)) / a.decay ^ (c.1 : ℕ) * -1
  else (a.wMinInter + (a.wMaxInter - a.wMinInter) * x (.unif c.1 c.2.1 c.2.2)) / a.decay ^ (c.1 : ℕ)

theorem interWeights_eq (a : DynParams ℝ) (r : InterDraws ℝ) (c : Fin p × Fin n × Fin n) :
    interWeights a.wMinInter a.wMaxInter a.decay (1 / 2) r c.1 c.2.1 c.2.2 = wInter a r.value c := rfl

theorem measurable_wInter (a : DynParams ℝ) (c : Fin p × Fin n × Fin n) : Measurable fun x : InterIx n p → ℝ => wInter a x c := by
  unfold wInter
  exact Measurable.ite (measurableSet_lt (measurable_pi_apply _) measurable_const) (by fun_prop) (by fun_prop)

/-- Which graphs are drawn. -/
theorem showsDyn_iff {a : DynParams ℝ} {r : Draws ℝ n} {r' : InterDraws ℝ} (hr : r.Uniform) (hr' : r'.Uniform) (hn : 2 ≤ n)
    (hw : |a.wMinIntra| ≤ |a.wMaxIntra|)
    (hty : a.typeIntra = "erdos-renyi" ∨ a.typeIntra = "full" ∨ a.typeIntra = "barabasi-albert" ∧ -1 ≤ a.degreeIntra)
    (h0' : 0 < a.wMinInter) (hw' : a.wMinInter ≤ a.wMaxInter) (hty' : a.typeInter = "erdos-renyi") (hdecay : a.decay ≠ 0)
    (G : Finset (Fin n × Fin n)) (B : Fin n × Fin n → Set ℝ) (G' : Finset (Fin p × Fin n × Fin n)) (B' : Fin p × Fin n × Fin n → Set ℝ) :
    (∃ g, generateDynamic n p a r r' = .ok g ∧ ShowsDyn g G B G' B') ↔
      (∃ g, generateStructure n a.degreeIntra a.typeIntra a.wMinIntra a.wMaxIntra r = .ok g ∧ Shows g G B) ∧
        ∀ c : Fin p × Fin n × Fin n, (r'.value (.rand c.1 c.2.1 c.2.2) < a.degreeInter / n ↔ c ∈ G') ∧ (c ∈ G' → wInter a r'.value c ∈ B' c) := by
  obtain ⟨g, hg⟩ := ((generateDynamic_total n p a r r').1).2 ⟨hn, hw, hty, hw', Or.inl hty'⟩
  have hval : (∃ g, generateDynamic n p a r r' = .ok g ∧ ShowsDyn g G B G' B') ↔ ShowsDyn g G B G' B' := by
    constructor
    · rintro ⟨g', h1, h2⟩
      rw [hg] at h1
      cases h1
      exact h2
    · exact fun h => ⟨g, hg, h⟩
  rw [hval]
  obtain ⟨intra, inter, hi, ht, hgeq⟩ := generateDynamic_ok hr hg
  obtain ⟨-, b, hb, -, -, hedges⟩ := generateInter_ok ht
  have hval2 : (∃ g, generateStructure n a.degreeIntra a.typeIntra a.wMinIntra a.wMaxIntra r = .ok g ∧ Shows g G B) ↔ Shows intra G B := by
    constructor
    · rintro ⟨g', h1, h2⟩
      rw [hi] at h1
      cases h1
      exact h2
    · exact fun h => ⟨intra, hi, h⟩
  rw [hval2]
  have hflag : ∀ c : Fin p × Fin n × Fin n, b (c.1 * n + c.2.1) c.2.2 ≠ 0 ↔ r'.value (.rand c.1 c.2.1 c.2.2) < a.degreeInter / n := by
    intro c
    unfold interFlags at hb
    rw [if_pos hty'] at hb
    injection hb with hb
    rw [← hb]
    simp [InterDraws.value]
  have hne : ∀ c : Fin p × Fin n × Fin n, interWeights a.wMinInter a.wMaxInter a.decay (1 / 2) r' c.1 c.2.1 c.2.2 ≠ 0 := by
    intro c
    obtain ⟨x, h1, -, h2⟩ := interWeights_range (decay := a.decay) (neg := 1 / 2) hw' hr' c.1 c.2.1 c.2.2
    have h3 : x / a.decay ^ (c.1 : ℕ) ≠ 0 := div_ne_zero (h0'.trans_le h1).ne' (pow_ne_zero _ hdecay)
    rcases h2 with h2 | h2 <;> rw [h2]
    · exact h3
    · exact neg_ne_zero.2 h3
  have hdag := generateStructure_dag hr hi
  -- the edges of both kinds
  have hpast : ∀ (c : Fin p × Fin n × Fin n), r'.value (.rand c.1 c.2.1 c.2.2) < a.degreeInter / n →
      ⟨lagName (natStr c.2.1) (c.1 + 1), lagName (natStr c.2.2) 0, wInter a r'.value c, "unknown"⟩ ∈ g.edges := by
    intro c hc
    rw [hgeq]
    exact List.mem_append.2 (Or.inl (List.mem_map.2 ⟨_, (hedges _).2 ⟨c.1, c.1.2, c.2.1, c.2.1.2, c.2.2, c.2.2.2, (hflag c).2 hc, hne c, rfl⟩, rfl⟩))
  have hnow : ∀ e ∈ intra.edges, ⟨lagName (natStr e.src) 0, lagName (natStr e.dst) 0, e.weight, "unknown"⟩ ∈ g.edges := by
    intro e he
    rw [hgeq]
    exact List.mem_append.2 (Or.inr (List.mem_map.2 ⟨e, he, rfl⟩))
  have hcases : ∀ e ∈ g.edges, (∃ c : Fin p × Fin n × Fin n, r'.value (.rand c.1 c.2.1 c.2.2) < a.degreeInter / n ∧
      e = ⟨lagName (natStr c.2.1) (c.1 + 1), lagName (natStr c.2.2) 0, wInter a r'.value c, "unknown"⟩) ∨
      ∃ e' ∈ intra.edges, e = ⟨lagName (natStr e'.src) 0, lagName (natStr e'.dst) 0, e'.weight, "unknown"⟩ := by
    intro e he
    rw [hgeq] at he
    rcases List.mem_append.1 he with he | he
    · obtain ⟨x, hx, rfl⟩ := List.mem_map.1 he
      obtain ⟨l, hl, i, hi, j, hj, h1, -, rfl⟩ := (hedges x).1 hx
      exact Or.inl ⟨(⟨l, hl⟩, ⟨i, hi⟩, ⟨j, hj⟩), (hflag (⟨l, hl⟩, ⟨i, hi⟩, ⟨j, hj⟩)).1 h1, rfl⟩
    · obtain ⟨x, hx, rfl⟩ := List.mem_map.1 he
      exact Or.inr ⟨x, hx, rfl⟩
  have hinj : ∀ c c' : Fin p × Fin n × Fin n, lagName (natStr c.2.1) (c.1 + 1) = lagName (natStr c'.2.1) (c'.1 + 1) →
      lagName (natStr c.2.2) 0 = lagName (natStr c'.2.2) 0 → c = c' := by
    intro c c' h1 h2
    obtain ⟨h3, h4⟩ := lagName_inj h1
    refine Prod.ext (Fin.ext (by omega)) (Prod.ext (Fin.ext (natStr_inj h3)) (Fin.ext (natStr_inj (lagName_inj h2).1)))
  constructor
  · intro h
    refine ⟨⟨fun e he => ?_, fun c hc => ?_⟩, fun c => ?_⟩
    · rcases h.edges _ (hnow e he) with ⟨c, hc, h1, h2, h3⟩ | ⟨c, hc, h1, h2, h3⟩
      · exact ⟨c, hc, natStr_inj (lagName_inj h1).1, natStr_inj (lagName_inj h2).1, h3⟩
      · exact absurd (lagName_inj h1).2 (by omega)
    · obtain ⟨e, he, h1, h2⟩ := h.intra c hc
      rcases hcases e he with ⟨c', -, rfl⟩ | ⟨e', he', rfl⟩
      · exact absurd (lagName_inj h1).2 (by omega)
      · exact ⟨e', he', natStr_inj (lagName_inj h1).1, natStr_inj (lagName_inj h2).1⟩
    · have key : ∀ c, r'.value (.rand c.1 c.2.1 c.2.2) < a.degreeInter / n → c ∈ G' ∧ wInter a r'.value c ∈ B' c := by
        intro c hc
        rcases h.edges _ (hpast c hc) with ⟨c', hc', h1, h2, h3⟩ | ⟨c', hc', h1, h2, h3⟩
        · exact absurd (lagName_inj h1).2 (by omega)
        · cases hinj c c' h1 h2
          exact ⟨hc', h3⟩
      have key2 : ∀ c ∈ G', r'.value (.rand c.1 c.2.1 c.2.2) < a.degreeInter / n := by
        intro c hc
        obtain ⟨e, he, h1, h2⟩ := h.inter c hc
        rcases hcases e he with ⟨c', hc', rfl⟩ | ⟨e', he', rfl⟩
        · cases hinj c' c h1 h2
          exact hc'
        · exact absurd (lagName_inj h1).2 (by omega)
      exact ⟨⟨fun hc => (key c hc).1, key2 c⟩, fun hc => (key c (key2 c hc)).2⟩
  · rintro ⟨⟨h1, h2⟩, h3⟩
    refine ⟨fun e he => ?_, fun c hc => ?_, fun c hc => ?_⟩
    · rcases hcases e he with ⟨c, hc, rfl⟩ | ⟨e', he', rfl⟩
      · have hcG := (h3 c).1.1 hc
        exact Or.inr ⟨c, hcG, rfl, rfl, (h3 c).2 hcG⟩
      · obtain ⟨c, hc, e1, e2, e3⟩ := h1 e' he'
        exact Or.inl ⟨c, hc, by rw [e1], by rw [e2], e3⟩
    · obtain ⟨e, he, e1, e2⟩ := h2 c hc
      exact ⟨_, hnow e he, by rw [e1], by rw [e2]⟩
    · exact ⟨_, hpast c ((h3 c).1.2 hc), rfl, rfl⟩

/-- The law of one weight. -/
theorem prob_wInter (hD : RandomDynamic m p P D D') (a : DynParams ℝ) (c : Fin p × Fin n × Fin n) {B : Set ℝ} (hB : MeasurableSet B) :
    P {ω | wInter a (D' ω).value c ∈ B} = weightLaw (a.wMinInter / a.decay ^ (c.1 : ℕ)) (a.wMaxInter / a.decay ^ (c.1 : ℕ)) B := by
  set lo := a.wMinInter / a.decay ^ (c.1 : ℕ) with hlo
  set hi := a.wMaxInter / a.decay ^ (c.1 : ℕ) with hhi
  have hform : ∀ x : InterIx n p → ℝ, wInter a x c = if x (.sign c.1 c.2.1 c.2.2) < 1 / 2 then -(lo + (hi - lo) * x (.unif c.1 c.2.1 c.2.2))
      else lo + (hi - lo) * x (.unif c.1 c.2.1 c.2.2) := by
    intro x
    have h1 : (a.wMinInter + (a.wMaxInter - a.wMinInter) * x (.unif c.1 c.2.1 c.2.2)) / a.decay ^ (c.1 : ℕ) =
        lo + (hi - lo) * x (.unif c.1 c.2.1 c.2.2) := by
      rw [hlo, hhi]
      ring
    unfold wInter
    rw [h1, mul_neg, mul_one]
  have key : ∀ (A : Set ℝ) (_ : MeasurableSet A) (C : Set ℝ) (_ : MeasurableSet C),
      P {ω | (D' ω).value (.sign c.1 c.2.1 c.2.2) ∈ A ∧ (D' ω).value (.unif c.1 c.2.1 c.2.2) ∈ C} = uniformLaw A * uniformLaw C := by
    intro A hA C hC
    have hind : IndepFun (fun ω => (D' ω).value (.sign c.1 c.2.1 c.2.2)) (fun ω => (D' ω).value (.unif c.1 c.2.1 c.2.2)) P :=
      hD.indep.indepFun (by simp)
    have := hind.measure_inter_preimage_eq_mul A C hA hC
    rw [← Measure.map_apply (hD.measurable _) hA, ← Measure.map_apply (hD.measurable _) hC, hD.law, hD.law] at this
    exact this
  have hm1 : MeasurableSet {u : ℝ | lo + (hi - lo) * u ∈ B} := (by fun_prop : Measurable fun u : ℝ => lo + (hi - lo) * u) hB
  have hm2 : MeasurableSet {u : ℝ | -(lo + (hi - lo) * u) ∈ B} := (by fun_prop : Measurable fun u : ℝ => -(lo + (hi - lo) * u)) hB
  have hsplit : {ω | wInter a (D' ω).value c ∈ B} =
      {ω | (D' ω).value (.sign c.1 c.2.1 c.2.2) ∈ Set.Ici (1 / 2) ∧ (D' ω).value (.unif c.1 c.2.1 c.2.2) ∈ {u : ℝ | lo + (hi - lo) * u ∈ B}} ∪
      {ω | (D' ω).value (.sign c.1 c.2.1 c.2.2) ∈ Set.Iio (1 / 2) ∧ (D' ω).value (.unif c.1 c.2.1 c.2.2) ∈ {u : ℝ | -(lo + (hi - lo) * u) ∈ B}} := by
    ext ω
    simp only [Set.mem_ofPred_eq, Set.mem_union, Set.mem_Ici, Set.mem_Iio, hform]
    by_cases h : (D' ω).value (.sign c.1 c.2.1 c.2.2) < 1 / 2
    · simp only [if_pos h, h, true_and, not_le.2 h, false_and, false_or]
      rfl
    · simp only [if_neg h, h, not_lt.1 h, true_and, false_and, or_false]
      rfl
  have hmeas : MeasurableSet {ω | (D' ω).value (.sign c.1 c.2.1 c.2.2) ∈ Set.Iio (1 / 2) ∧
      (D' ω).value (.unif c.1 c.2.1 c.2.2) ∈ {u : ℝ | -(lo + (hi - lo) * u) ∈ B}} :=
    ((hD.measurable _) measurableSet_Iio).inter ((hD.measurable _) hm2)
  rw [hsplit, measure_union _ hmeas, key _ measurableSet_Ici _ hm1, key _ measurableSet_Iio _ hm2,
    uniformLaw_Ici (by norm_num) (by norm_num), uniformLaw_Iio (by norm_num)]
  · have h2 : ENNReal.ofReal (1 - 1 / 2) = 2⁻¹ := by
      rw [show (1 - 1 / 2 : ℝ) = 2⁻¹ by norm_num, ENNReal.ofReal_inv_of_pos (by norm_num)]
      norm_num
    have h3 : ENNReal.ofReal (1 / 2) = 2⁻¹ := by
      rw [show (1 / 2 : ℝ) = 2⁻¹ by norm_num, ENNReal.ofReal_inv_of_pos (by norm_num)]
      norm_num
    rw [h2, h3]
    rfl
  · rw [Set.disjoint_left]
    rintro ω ⟨h1, -⟩ ⟨h2, -⟩
    exact absurd (Set.mem_Ici.1 h1) (not_le.2 h2)

theorem prob_interRand (hD : RandomDynamic m p P D D') {q : ℝ} (h0 : 0 ≤ q) (h1 : q ≤ 1) (l : Fin p) (i j : Fin n) :
    P {ω | (D' ω).value (.rand l i j) < q} = ENNReal.ofReal q ∧ P {ω | ¬ (D' ω).value (.rand l i j) < q} = ENNReal.ofReal (1 - q) := by
  have hm : Measurable fun ω => (D' ω).value (.rand l i j) := hD.measurable (.rand l i j)
  constructor
  · rw [← uniformLaw_Iio h1, ← hD.law (.rand l i j), Measure.map_apply hm measurableSet_Iio]
    rfl
  · rw [← uniformLaw_Ici h0 h1, ← hD.law (.rand l i j), Measure.map_apply hm measurableSet_Ici]
    congr 1
    ext ω
    simp

/-- The event that given edges from the past are drawn, with weights in given sets. -/
def pastEvent (a : DynParams ℝ) (q : ℝ) (G' : Finset (Fin p × Fin n × Fin n)) (B' : Fin p × Fin n × Fin n → Set ℝ) : Set (InterIx n p → ℝ) :=
  {x | ∀ c : Fin p × Fin n × Fin n, (x (.rand c.1 c.2.1 c.2.2) < q ↔ c ∈ G') ∧ (c ∈ G' → wInter a x c ∈ B' c)}

/-- The law of the edges from the past. -/
theorem past_law (hD : RandomDynamic m p P D D') (a : DynParams ℝ) {q : ℝ} (h0 : 0 ≤ q) (h1 : q ≤ 1) (G' : Finset (Fin p × Fin n × Fin n))
    (B' : Fin p × Fin n × Fin n → Set ℝ) (hB : ∀ c ∈ G', MeasurableSet (B' c)) :
    MeasurableSet (pastEvent a q G' B') ∧ P {ω | (D' ω).value ∈ pastEvent a q G' B'} =
      ENNReal.ofReal q ^ G'.card * ENNReal.ofReal (1 - q) ^ (p * n ^ 2 - G'.card) *
        ∏ c ∈ G', weightLaw (a.wMinInter / a.decay ^ (c.1 : ℕ)) (a.wMaxInter / a.decay ^ (c.1 : ℕ)) (B' c) := by
  classical
  let blocks : (Fin p × Fin n × Fin n) ⊕ (Fin p × Fin n × Fin n) → Finset (InterIx n p) := fun o => match o with
    | .inl c => {.rand c.1 c.2.1 c.2.2}
    | .inr c => {.unif c.1 c.2.1 c.2.2, .sign c.1 c.2.1 c.2.2}
  let events : (Fin p × Fin n × Fin n) ⊕ (Fin p × Fin n × Fin n) → Set (InterIx n p → ℝ) := fun o => match o with
    | .inl c => {x | x (.rand c.1 c.2.1 c.2.2) < q ↔ c ∈ G'}
    | .inr c => {x | wInter a x c ∈ B' c}
  have hev : ∀ o ∈ Finset.univ.disjSum G', MeasurableSet (events o) := by
    intro o ho
    cases o with
    | inl c =>
      have hlt : MeasurableSet {x : InterIx n p → ℝ | x (.rand c.1 c.2.1 c.2.2) < q} := measurableSet_lt (measurable_pi_apply _) measurable_const
      by_cases h : c ∈ G'
      · have : events (.inl c) = {x | x (.rand c.1 c.2.1 c.2.2) < q} := by ext x; simp [events, h]
        rw [this]; exact hlt
      · have : events (.inl c) = {x | x (.rand c.1 c.2.1 c.2.2) < q}ᶜ := by ext x; simp [events, h]
        rw [this]; exact hlt.compl
    | inr c => exact (measurable_wInter a c) (hB c (Finset.inr_mem_disjSum.1 ho))
  have hset : pastEvent a q G' B' = ⋂ o ∈ Finset.univ.disjSum G', events o := by
    ext x
    simp only [pastEvent, Set.mem_ofPred_eq, Set.mem_iInter]
    constructor
    · intro h o ho
      cases o with
      | inl c => exact (h c).1
      | inr c => exact (h c).2 (Finset.inr_mem_disjSum.1 ho)
    · intro h c
      exact ⟨h (.inl c) (Finset.inl_mem_disjSum.2 (Finset.mem_univ c)), fun hc => h (.inr c) (Finset.inr_mem_disjSum.2 hc)⟩
  refine ⟨by rw [hset]; exact Finset.measurableSet_biInter _ hev, ?_⟩
  have hpb := prob_blocks (P := P) hD.measurable hD.indep (Finset.univ.disjSum G') blocks ?_ events hev ?_
  · have e1 : {ω | (D' ω).value ∈ pastEvent a q G' B'} =
        {ω | ∀ b ∈ Finset.univ.disjSum G', (fun i => (D' ω).value i) ∈ events b} := by
      ext ω
      rw [hset]
      simp only [Set.mem_ofPred_eq, Set.mem_iInter]
    rw [e1, hpb, Finset.prod_disjSum]
    congr 1
    · have hterm : ∀ c ∈ (Finset.univ : Finset (Fin p × Fin n × Fin n)), P {ω | (fun i => (D' ω).value i) ∈ events (.inl c)} =
          if c ∈ G' then ENNReal.ofReal q else ENNReal.ofReal (1 - q) := by
        intro c _
        obtain ⟨k1, k2⟩ := prob_interRand hD h0 h1 c.1 c.2.1 c.2.2
        split_ifs with h
        · rw [← k1]
          congr 1
          ext ω
          simp [events, h]
        · rw [← k2]
          congr 1
          ext ω
          simp [events, h]
      rw [Finset.prod_congr rfl hterm, Finset.prod_ite, Finset.prod_const, Finset.prod_const]
      have h2 : (Finset.univ.filter fun c : Fin p × Fin n × Fin n => c ∈ G') = G' := by ext; simp
      have h3 := Finset.card_filter_add_card_filter_not (s := (Finset.univ : Finset (Fin p × Fin n × Fin n))) (fun c => c ∈ G')
      rw [h2, Finset.card_univ, Fintype.card_prod, Fintype.card_prod, Fintype.card_fin, Fintype.card_fin, ← sq] at h3
      rw [h2]
      congr 2
      omega
    · exact Finset.prod_congr rfl fun c hc => prob_wInter hD a c (hB c hc)
  · intro o _ o' _ hne
    rw [Finset.disjoint_left]
    intro i hi hi'
    apply hne
    cases o <;> cases o' <;> simp only [blocks, Finset.mem_insert, Finset.mem_singleton] at hi hi'
    · rw [hi] at hi'
      injection hi' with h1 h2 h3
      rw [Prod.ext h1 (Prod.ext h2 h3)]
    · rcases hi' with h | h <;> rw [hi] at h <;> cases h
    · rcases hi with h | h <;> rw [hi'] at h <;> cases h
    · rcases hi with h | h <;> rcases hi' with h' | h' <;> rw [h] at h'
      · injection h' with h1 h2 h3
        rw [Prod.ext h1 (Prod.ext h2 h3)]
      · cases h'
      · cases h'
      · injection h' with h1 h2 h3
        rw [Prod.ext h1 (Prod.ext h2 h3)]
  · intro o _ x y hxy hx
    cases o with
    | inl c =>
      have := hxy (.rand c.1 c.2.1 c.2.2) (by simp [blocks])
      change y (.rand c.1 c.2.1 c.2.2) < q ↔ _
      rw [← this]
      exact hx
    | inr c =>
      have h1 := hxy (.unif c.1 c.2.1 c.2.2) (by simp [blocks])
      have h2 := hxy (.sign c.1 c.2.1 c.2.2) (by simp [blocks])
      change wInter a y c ∈ B' c
      have h3 : wInter a y c = wInter a x c := by
        unfold wInter
        rw [h1, h2]
      rw [h3]
      exact hx

/-- **C152**: the probability of every dynamic graph with every choice of sets for the weights.  The present is that of
`generate_structure` (C124); independently of it, every edge from a lagged variable to a present one is there with probability
`degree_inter / num_nodes`, with a weight that is uniform up to sign, divided by a power of `w_decay`. -/
theorem dynamic_law (hD : RandomDynamic m p P D D') {a : DynParams ℝ} (hn : 2 ≤ n) (h0 : a.wMinIntra ≠ 0) (hw : |a.wMinIntra| ≤ |a.wMaxIntra|)
    (hty : a.typeIntra = "erdos-renyi" ∨ a.typeIntra = "full" ∨ a.typeIntra = "barabasi-albert" ∧ -1 ≤ a.degreeIntra)
    (h0' : 0 < a.wMinInter) (hw' : a.wMinInter ≤ a.wMaxInter) (hty' : a.typeInter = "erdos-renyi") (hdecay : a.decay ≠ 0)
    (hd0 : 0 ≤ a.degreeInter) (hd1 : a.degreeInter ≤ n)
    (G : Finset (Fin n × Fin n)) (B : Fin n × Fin n → Set ℝ) (hB : ∀ c ∈ G, MeasurableSet (B c))
    (G' : Finset (Fin p × Fin n × Fin n)) (B' : Fin p × Fin n × Fin n → Set ℝ) (hB' : ∀ c ∈ G', MeasurableSet (B' c)) :
    P {ω | ∃ g, generateDynamic n p a (D ω) (D' ω) = .ok g ∧ ShowsDyn g G B G' B'} =
      P {ω | ∃ g, generateStructure n a.degreeIntra a.typeIntra a.wMinIntra a.wMaxIntra (D ω) = .ok g ∧ Shows g G B} *
        (ENNReal.ofReal (a.degreeInter / n) ^ G'.card * ENNReal.ofReal (1 - a.degreeInter / n) ^ (p * n ^ 2 - G'.card) *
          ∏ c ∈ G', weightLaw (a.wMinInter / a.decay ^ (c.1 : ℕ)) (a.wMaxInter / a.decay ^ (c.1 : ℕ)) (B' c)) := by
  have hpos : (0 : ℝ) < n := by exact_mod_cast (by omega : 0 < n)
  obtain ⟨hm, hpast⟩ := past_law hD a (div_nonneg hd0 hpos.le) ((div_le_one hpos).2 hd1) G' B' hB'
  obtain ⟨A, hA, he⟩ := any_event hD.intra.uniform hn h0 hw hty G B hB
  rw [← hpast, ← intra_indep hD hA he hm]
  congr 1
  ext ω
  rw [Set.mem_ofPred_eq, showsDyn_iff (hD.intra.uniform ω) (hD.uniform ω) hn hw hty h0' hw' hty' hdecay]
  rfl

end Verif.Generators
