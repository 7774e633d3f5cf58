import Verif.Generators.Law.Dynamic

/-!
# Full dynamic structures, and expected numbers of edges (C152)
-/

namespace Verif.Generators

open MeasureTheory ProbabilityTheory Verif.Notears Verif.Str Verif.Dynotears
open scoped ENNReal

variable {n m p : ℕ} {Ω : Type} [MeasurableSpace Ω] {P : Measure Ω} [IsProbabilityMeasure P] {D : Ω → Draws ℝ n} {D' : Ω → InterDraws ℝ}

/-- For uniform numbers, "full" is Erdős-Rényi with degree `n`. -/
theorem full_inter_eq (hn : n ≠ 0) (a : DynParams ℝ) (hty : a.typeInter = "full") (r : Draws ℝ n) {r' : InterDraws ℝ} (hr' : r'.Uniform) :
    generateDynamic n p a r r' = generateDynamic n p { a with typeInter := "erdos-renyi", degreeInter := n } r r' := by
  have h1 : ∀ d, interFlags n d "full" r' = interFlags n (n : ℝ) "erdos-renyi" r' := by
    intro d
    unfold interFlags
    rw [if_neg (by decide), if_pos rfl, if_pos rfl]
    dsimp only
    congr 1
    funext i j
    rw [div_self (by exact_mod_cast hn), if_pos (hr'.1 i j).2]
  unfold generateDynamic generateInter
  simp only [hty, h1]

/-- **C152**, type "full": all edges from the past are there. -/
theorem dynamic_law_full (hD : RandomDynamic m p P D D') {a : DynParams ℝ} (hn : 2 ≤ n) (h0 : a.wMinIntra ≠ 0) (hw : |a.wMinIntra| ≤ |a.wMaxIntra|)
    (hty : a.typeIntra = "erdos-renyi" ∨ a.typeIntra = "full" ∨ a.typeIntra = "barabasi-albert" ∧ -1 ≤ a.degreeIntra)
    (h0' : 0 < a.wMinInter) (hw' : a.wMinInter ≤ a.wMaxInter) (hty' : a.typeInter = "full") (hdecay : a.decay ≠ 0)
    (G : Finset (Fin n × Fin n)) (B : Fin n × Fin n → Set ℝ) (hB : ∀ c ∈ G, MeasurableSet (B c))
    (B' : Fin p × Fin n × Fin n → Set ℝ) (hB' : ∀ c, MeasurableSet (B' c)) :
    P {ω | ∃ g, generateDynamic n p a (D ω) (D' ω) = .ok g ∧ ShowsDyn g G B Finset.univ B'} =
      P {ω | ∃ g, generateStructure n a.degreeIntra a.typeIntra a.wMinIntra a.wMaxIntra (D ω) = .ok g ∧ Shows g G B} *
        ∏ c : Fin p × Fin n × Fin n, weightLaw (a.wMinInter / a.decay ^ (c.1 : ℕ)) (a.wMaxInter / a.decay ^ (c.1 : ℕ)) (B' c) := by
  have hpos : (0 : ℝ) < n := by exact_mod_cast (by omega : 0 < n)
  have h := dynamic_law hD (a := { a with typeInter := "erdos-renyi", degreeInter := n }) hn h0 hw hty h0' hw' rfl hdecay hpos.le le_rfl
    G B hB Finset.univ B' fun c _ => hB' c
  have hcard : (Finset.univ : Finset (Fin p × Fin n × Fin n)).card = p * n ^ 2 := by
    rw [Finset.card_univ, Fintype.card_prod, Fintype.card_prod, Fintype.card_fin, Fintype.card_fin, sq]
  rw [hcard] at h
  simp only [div_self hpos.ne', ENNReal.ofReal_one, one_pow, Nat.sub_self, pow_zero, one_mul] at h
  rw [← h]
  congr 1
  ext ω
  simp only [Set.mem_ofPred_eq, full_inter_eq (by omega : n ≠ 0) a hty' (D ω) (hD.uniform ω)]

/-- The edge that a triple stands for. -/
def pastEdge (c : Fin p × Fin n × Fin n) : Str × Str := (lagName (natStr c.2.1) (c.1 + 1), lagName (natStr c.2.2) 0)

theorem pastEdge_inj {c c' : Fin p × Fin n × Fin n} (h : pastEdge c = pastEdge c') : c = c' := by
  obtain ⟨h1, h2⟩ := Prod.mk.inj h
  obtain ⟨h3, h4⟩ := lagName_inj h1
  exact Prod.ext (Fin.ext (by omega)) (Prod.ext (Fin.ext (natStr_inj h3)) (Fin.ext (natStr_inj (lagName_inj h2).1)))

/-- **C152**: every edge from the past has the probability `degree_inter / num_nodes` (and not the documented `degree / (num_nodes - 1)`). -/
theorem dynamic_edge (hD : RandomDynamic m p P D D') {a : DynParams ℝ} (hn : 2 ≤ n) (hw : |a.wMinIntra| ≤ |a.wMaxIntra|)
    (hty : a.typeIntra = "erdos-renyi" ∨ a.typeIntra = "full" ∨ a.typeIntra = "barabasi-albert" ∧ -1 ≤ a.degreeIntra)
    (h0' : 0 < a.wMinInter) (hw' : a.wMinInter ≤ a.wMaxInter) (hty' : a.typeInter = "erdos-renyi") (hdecay : a.decay ≠ 0)
    (hd0 : 0 ≤ a.degreeInter) (hd1 : a.degreeInter ≤ n) (l : Fin p) (i j : Fin n) :
    MeasurableSet {ω | ∃ g, generateDynamic n p a (D ω) (D' ω) = .ok g ∧ (lagName (natStr i) (l + 1), lagName (natStr j) 0) ∈ pairs g} ∧
    P {ω | ∃ g, generateDynamic n p a (D ω) (D' ω) = .ok g ∧ (lagName (natStr i) (l + 1), lagName (natStr j) 0) ∈ pairs g} =
      ENNReal.ofReal (a.degreeInter / n) := by
  have hpos : (0 : ℝ) < n := by exact_mod_cast (by omega : 0 < n)
  have hset : {ω | ∃ g, generateDynamic n p a (D ω) (D' ω) = .ok g ∧ (lagName (natStr i) (l + 1), lagName (natStr j) 0) ∈ pairs g} =
      {ω | (D' ω).value (.rand l i j : InterIx n p) < a.degreeInter / n} := by
    ext ω
    obtain ⟨g, hg⟩ := ((generateDynamic_total n p a (D ω) (D' ω)).1).2 ⟨hn, hw, hty, hw', Or.inl hty'⟩
    have h1 := generateDynamic_inter (hD.intra.uniform ω) (hD.uniform ω) h0' hdecay hg i.2 j.2 (k := l + 1) (by omega) (by omega)
    rw [hty', Nat.add_sub_cancel] at h1
    have h2 : (lagName (natStr i) (l + 1), lagName (natStr j) 0) ∈ pairs g ↔ (D' ω).value (.rand l i j : InterIx n p) < a.degreeInter / n :=
      h1.trans ⟨fun h => h.resolve_left (by decide), Or.inr⟩
    constructor
    · rintro ⟨g', hg', h⟩
      rw [hg] at hg'
      cases hg'
      exact h2.1 h
    · exact fun h => ⟨g, hg, h2.2 h⟩
  rw [hset]
  exact ⟨(hD.measurable _) measurableSet_Iio, (prob_interRand hD (div_nonneg hd0 hpos.le) ((div_le_one hpos).2 hd1) l i j).1⟩

/-- Expected numbers of edges from the past. -/
theorem dynamic_count (hD : RandomDynamic m p P D D') {a : DynParams ℝ} (hn : 2 ≤ n) (hw : |a.wMinIntra| ≤ |a.wMaxIntra|)
    (hty : a.typeIntra = "erdos-renyi" ∨ a.typeIntra = "full" ∨ a.typeIntra = "barabasi-albert" ∧ -1 ≤ a.degreeIntra)
    (h0' : 0 < a.wMinInter) (hw' : a.wMinInter ≤ a.wMaxInter) (hty' : a.typeInter = "erdos-renyi") (hdecay : a.decay ≠ 0)
    (hd0 : 0 ≤ a.degreeInter) (hd1 : a.degreeInter ≤ n) (Q : Str × Str → Bool) (S : Finset (Fin p × Fin n × Fin n))
    (hQ : ∀ i < n, ∀ k ≤ p, ∀ j < n, Q (lagName (natStr i) k, lagName (natStr j) 0) = true ↔
      ∃ c ∈ S, pastEdge c = (lagName (natStr i) k, lagName (natStr j) 0)) :
    ∫⁻ ω, (countOf (generateDynamic n p a (D ω) (D' ω)) (fun g => ((pairs g).filter Q).length) : ℝ≥0∞) ∂P =
      ENNReal.ofReal (S.card * (a.degreeInter / n)) := by
  classical
  let E : Fin p × Fin n × Fin n → Set Ω := fun c => {ω | ∃ g, generateDynamic n p a (D ω) (D' ω) = .ok g ∧ pastEdge c ∈ pairs g}
  have hE : ∀ c, MeasurableSet (E c) ∧ P (E c) = ENNReal.ofReal (a.degreeInter / n) := fun c =>
    dynamic_edge hD hn hw hty h0' hw' hty' hdecay hd0 hd1 c.1 c.2.1 c.2.2
  have hpoint : ∀ ω, (countOf (generateDynamic n p a (D ω) (D' ω)) (fun g => ((pairs g).filter Q).length) : ℝ≥0∞) =
      ∑ c ∈ S, (E c).indicator 1 ω := by
    intro ω
    obtain ⟨g, hg⟩ := ((generateDynamic_total n p a (D ω) (D' ω)).1).2 ⟨hn, hw, hty, hw', Or.inl hty'⟩
    have hdag := generateDynamic_dag (hD.intra.uniform ω) (hD.uniform ω) hg
    have hmem : ∀ c, ω ∈ E c ↔ pastEdge c ∈ pairs g := by
      intro c
      constructor
      · rintro ⟨g', h1, h2⟩
        rw [hg] at h1
        cases h1
        exact h2
      · exact fun h => ⟨g, hg, h⟩
    rw [hg]
    change ((((pairs g).filter Q).length : ℕ) : ℝ≥0∞) = _
    have h1 : ∀ c ∈ S, (E c).indicator (1 : Ω → ℝ≥0∞) ω = if pastEdge c ∈ pairs g then 1 else 0 := by
      intro c _
      rw [Set.indicator_apply]
      simp only [hmem, Pi.one_apply]
    rw [Finset.sum_congr rfl h1, ← Finset.sum_filter, Finset.sum_const, nsmul_eq_mul, mul_one, ← List.toFinset_card_of_nodup (hdag.simple.filter _)]
    congr 1
    symm
    have hends : ∀ e ∈ pairs g, ∃ i < n, ∃ k ≤ p, ∃ j < n, e = (lagName (natStr i) k, lagName (natStr j) 0) := by
      intro e he
      obtain ⟨x, hx, rfl⟩ := List.mem_map.1 he
      obtain ⟨i, hi, k, hk, j, hj, e1, e2, -⟩ := hdag.edges x hx
      exact ⟨i, hi, k, hk, j, hj, Prod.ext e1 e2⟩
    refine Finset.card_bij (fun c _ => pastEdge c) ?_ (fun c _ c' _ h => pastEdge_inj h) ?_
    · intro c hc
      obtain ⟨hc1, hc2⟩ := Finset.mem_filter.1 hc
      rw [List.mem_toFinset, List.mem_filter]
      refine ⟨hc2, ?_⟩
      exact (hQ c.2.1 c.2.1.2 (c.1 + 1) (by omega) c.2.2 c.2.2.2).2 ⟨c, hc1, rfl⟩
    · intro e he
      rw [List.mem_toFinset, List.mem_filter] at he
      obtain ⟨i, hi, k, hk, j, hj, rfl⟩ := hends e he.1
      obtain ⟨c, hc, h⟩ := (hQ i hi k hk j hj).1 he.2
      exact ⟨c, Finset.mem_filter.2 ⟨hc, by rw [h]; exact he.1⟩, h⟩
  rw [lintegral_congr hpoint, lintegral_finsetSum' _ fun c _ => (measurable_one.indicator (hE c).1).aemeasurable]
  rw [Finset.sum_congr rfl fun c _ => (lintegral_indicator_one (hE c).1).trans (hE c).2, Finset.sum_const, nsmul_eq_mul,
    ENNReal.ofReal_mul (Nat.cast_nonneg _), ENNReal.ofReal_natCast]

/-- **C152**: the expected number of edges that leave a lagged node is `degree_inter`, as documented. -/
theorem dynamic_outDegree (hD : RandomDynamic m p P D D') {a : DynParams ℝ} (hn : 2 ≤ n) (hw : |a.wMinIntra| ≤ |a.wMaxIntra|)
    (hty : a.typeIntra = "erdos-renyi" ∨ a.typeIntra = "full" ∨ a.typeIntra = "barabasi-albert" ∧ -1 ≤ a.degreeIntra)
    (h0' : 0 < a.wMinInter) (hw' : a.wMinInter ≤ a.wMaxInter) (hty' : a.typeInter = "erdos-renyi") (hdecay : a.decay ≠ 0)
    (hd0 : 0 ≤ a.degreeInter) (hd1 : a.degreeInter ≤ n) (l : Fin p) (i : Fin n) :
    ∫⁻ ω, (countOf (generateDynamic n p a (D ω) (D' ω)) (fun g => outDegree g (lagName (natStr i) (l + 1))) : ℝ≥0∞) ∂P =
      ENNReal.ofReal a.degreeInter := by
  classical
  have h := dynamic_count hD hn hw hty h0' hw' hty' hdecay hd0 hd1 (fun e => e.1 = lagName (natStr i) (l + 1))
    ((Finset.univ : Finset (Fin n)).image fun j => (l, i, j)) ?_
  · rw [Finset.card_image_of_injective _ (fun a b h => (Prod.mk.inj (Prod.mk.inj h).2).2), Finset.card_univ, Fintype.card_fin,
      mul_div_cancel₀ _ (by exact_mod_cast (by omega : n ≠ 0) : (n : ℝ) ≠ 0)] at h
    rw [← h]
    refine lintegral_congr fun ω => ?_
    congr 2
    funext g
    rw [outDegree, pairs, List.filter_map, List.length_map]
    rfl
  · intro i' _ k _ j hj
    simp only [decide_eq_true_eq, Finset.mem_image, Finset.mem_univ, true_and]
    constructor
    · intro he
      exact ⟨_, ⟨⟨j, hj⟩, rfl⟩, Prod.ext he.symm rfl⟩
    · rintro ⟨c, ⟨j', rfl⟩, h⟩
      exact (Prod.mk.inj h).1.symm

/-- **C152**: the expected number of edges from the past into a present node is `p * degree_inter`. -/
theorem dynamic_inDegree (hD : RandomDynamic m p P D D') {a : DynParams ℝ} (hn : 2 ≤ n) (hw : |a.wMinIntra| ≤ |a.wMaxIntra|)
    (hty : a.typeIntra = "erdos-renyi" ∨ a.typeIntra = "full" ∨ a.typeIntra = "barabasi-albert" ∧ -1 ≤ a.degreeIntra)
    (h0' : 0 < a.wMinInter) (hw' : a.wMinInter ≤ a.wMaxInter) (hty' : a.typeInter = "erdos-renyi") (hdecay : a.decay ≠ 0)
    (hd0 : 0 ≤ a.degreeInter) (hd1 : a.degreeInter ≤ n) (j : Fin n) :
    ∫⁻ ω, (countOf (generateDynamic n p a (D ω) (D' ω)) (fun g => inDegreePast n g (lagName (natStr j) 0)) : ℝ≥0∞) ∂P =
      ENNReal.ofReal (p * a.degreeInter) := by
  classical
  have h := dynamic_count hD hn hw hty h0' hw' hty' hdecay hd0 hd1
    (fun e => e.2 = lagName (natStr j) 0 ∧ e.1 ∉ (List.range n).map fun i => lagName (natStr i) 0)
    ((Finset.univ : Finset (Fin p × Fin n)).image fun c => (c.1, c.2, j)) ?_
  · rw [Finset.card_image_of_injective _ (fun a b h => Prod.ext (Prod.mk.inj h).1 (Prod.mk.inj (Prod.mk.inj h).2).1), Finset.card_univ,
      Fintype.card_prod, Fintype.card_fin, Fintype.card_fin] at h
    have hne : (n : ℝ) ≠ 0 := by exact_mod_cast (by omega : n ≠ 0)
    have h2 : ((p * n : ℕ) : ℝ) * (a.degreeInter / n) = p * a.degreeInter := by
      push_cast
      field_simp
    rw [h2] at h
    rw [← h]
    refine lintegral_congr fun ω => ?_
    congr 2
    funext g
    rw [inDegreePast, pairs, List.filter_map, List.length_map]
    rfl
  · intro i' hi' k hk j' hj'
    simp only [decide_eq_true_eq, Finset.mem_image, Finset.mem_univ, true_and, List.mem_map, List.mem_range, not_exists, not_and]
    constructor
    · rintro ⟨he, hno⟩
      rcases Nat.eq_zero_or_pos k with rfl | hpos
      · exact absurd rfl (hno i' hi')
      · refine ⟨_, ⟨(⟨k - 1, by omega⟩, ⟨i', hi'⟩), rfl⟩, ?_⟩
        simp only [pastEdge, Nat.sub_add_cancel hpos, he]
    · rintro ⟨c, ⟨c', rfl⟩, h⟩
      obtain ⟨h1, h2⟩ := Prod.mk.inj h
      refine ⟨h2.symm, fun x _ hx => ?_⟩
      have := (lagName_inj (hx.trans h1.symm)).2
      omega

end Verif.Generators
