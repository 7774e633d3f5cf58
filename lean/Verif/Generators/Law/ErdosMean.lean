import Verif.Generators.Law.Erdos

/-!
# Erdős-Rényi structures have the expected degree that is asked for, and the law of full structures (C124)
-/

namespace Verif.Generators

open MeasureTheory ProbabilityTheory Verif.Notears
open scoped ENNReal

variable {n m : ℕ} {Ω : Type} [MeasurableSpace Ω] {P : Measure Ω} [IsProbabilityMeasure P] {D : Ω → Draws ℝ n}

/-- Half of the orders have one node before another. -/
theorem card_half {i j : Fin n} (hij : i ≠ j) :
    2 * ((Finset.univ : Finset (Equiv.Perm (Fin n))).filter fun σ => σ.symm j < σ.symm i).card = n.factorial := by
  have h1 := Finset.card_filter_add_card_filter_not (s := (Finset.univ : Finset (Equiv.Perm (Fin n)))) fun σ => σ.symm j < σ.symm i
  have h2 : ((Finset.univ : Finset (Equiv.Perm (Fin n))).filter fun σ => ¬ σ.symm j < σ.symm i).card =
      ((Finset.univ : Finset (Equiv.Perm (Fin n))).filter fun σ => σ.symm j < σ.symm i).card := by
    refine Finset.card_bij (fun σ _ => σ.trans (Equiv.swap i j)) ?_ ?_ ?_
    · intro σ hσ
      simp only [Finset.mem_filter, Finset.mem_univ, true_and, Equiv.symm_trans_apply, Equiv.symm_swap, Equiv.swap_apply_left,
        Equiv.swap_apply_right] at hσ ⊢
      exact lt_of_le_of_ne (not_lt.1 hσ) fun h => hij (σ.symm.injective h)
    · intro σ _ τ _ h
      ext x
      have := DFunLike.congr_fun h x
      simp only [Equiv.trans_apply] at this
      rw [(Equiv.swap i j).injective this]
    · intro τ hτ
      refine ⟨τ.trans (Equiv.swap i j), ?_, ?_⟩
      · simp only [Finset.mem_filter, Finset.mem_univ, true_and, Equiv.symm_trans_apply, Equiv.symm_swap, Equiv.swap_apply_left,
          Equiv.swap_apply_right] at hτ ⊢
        exact not_lt.2 hτ.le
      · ext x
        simp
  rw [Finset.card_univ, Fintype.card_perm, Fintype.card_fin] at h1
  omega

/-- The event that an edge is in the graph. -/
def hasEdge (n : ℕ) (degree : ℝ) (ty : String) (wMin wMax : ℝ) (D : Ω → Draws ℝ n) (c : Fin n × Fin n) : Set Ω :=
  {ω | ∃ g, generateStructure n degree ty wMin wMax (D ω) = .ok g ∧ ((c.1 : ℕ), (c.2 : ℕ)) ∈ pairs g}

theorem hasEdge_eq (hD : RandomStructure m P D) {degree wMin wMax : ℝ} (hn : 2 ≤ n) (h0 : wMin ≠ 0) (hw : |wMin| ≤ |wMax|)
    (c : Fin n × Fin n) : hasEdge n degree "erdos-renyi" wMin wMax D c =
      ⋃ σ ∈ (Finset.univ : Finset (Equiv.Perm (Fin n))).filter (fun σ => σ.symm c.2 < σ.symm c.1),
        {ω | (D ω).perm = σ} ∩ {ω | (D ω).value ∈ {x | x (.rand (σ.symm c.1) (σ.symm c.2)) < degree / ((n : ℝ) - 1)}} := by
  ext ω
  have hgen := ((generateStructure_total n degree wMin wMax "erdos-renyi" (D ω)).1).2 ⟨hn, hw, Or.inl rfl⟩
  obtain ⟨g, hg⟩ := hgen
  have h1 : ω ∈ hasEdge n degree "erdos-renyi" wMin wMax D c ↔ ((c.1 : ℕ), (c.2 : ℕ)) ∈ pairs g := by
    constructor
    · rintro ⟨g', h1, h2⟩
      rw [hg] at h1
      cases h1
      exact h2
    · exact fun h => ⟨g, hg, h⟩
  rw [h1, generateStructure_erdos (hD.uniform ω) h0 hg c.1 c.2]
  simp only [Set.mem_iUnion, Finset.mem_filter, Finset.mem_univ, true_and, Set.mem_inter_iff, Set.mem_ofPred_eq, exists_prop]
  constructor
  · intro h
    exact ⟨_, h.1, rfl, h.2⟩
  · rintro ⟨σ, h, rfl, h'⟩
    exact ⟨h, h'⟩

theorem measurableSet_below (σ : Equiv.Perm (Fin n)) (c : Fin n × Fin n) (p : ℝ) :
    MeasurableSet {x : StructIx n → ℝ | x (.rand (σ.symm c.1) (σ.symm c.2)) < p} :=
  measurableSet_lt (measurable_pi_apply _) measurable_const

theorem measurableSet_hasEdge (hD : RandomStructure m P D) {degree wMin wMax : ℝ} (hn : 2 ≤ n) (h0 : wMin ≠ 0) (hw : |wMin| ≤ |wMax|)
    (c : Fin n × Fin n) : MeasurableSet (hasEdge n degree "erdos-renyi" wMin wMax D c) := by
  rw [hasEdge_eq hD hn h0 hw]
  refine Finset.measurableSet_biUnion _ fun σ _ => (hD.measurable_perm σ).inter ?_
  exact (measurable_pi_lambda _ hD.measurable) (measurableSet_below σ c _)

/-- **C124**: every edge is in an Erdős-Rényi graph with probability `p / 2`, in either direction. -/
theorem erdos_edge (hD : RandomStructure m P D) {degree wMin wMax : ℝ} (hn : 2 ≤ n) (hd0 : 0 ≤ degree) (hd1 : degree ≤ n - 1)
    (h0 : wMin ≠ 0) (hw : |wMin| ≤ |wMax|) {i j : Fin n} (hij : i ≠ j) :
    P {ω | ∃ g, generateStructure n degree "erdos-renyi" wMin wMax (D ω) = .ok g ∧ ((i : ℕ), (j : ℕ)) ∈ pairs g} =
      ENNReal.ofReal (degree / ((n : ℝ) - 1)) / 2 := by
  have hpos : (0 : ℝ) < (n : ℝ) - 1 := by
    have : (2 : ℝ) ≤ n := by exact_mod_cast hn
    linarith
  have hp0 : 0 ≤ degree / ((n : ℝ) - 1) := div_nonneg hd0 hpos.le
  have hp1 : degree / ((n : ℝ) - 1) ≤ 1 := (div_le_one hpos).2 hd1
  change P (hasEdge n degree "erdos-renyi" wMin wMax D (i, j)) = _
  rw [hasEdge_eq hD hn h0 hw, measure_biUnion_finset]
  · have hterm : ∀ σ ∈ (Finset.univ : Finset (Equiv.Perm (Fin n))).filter (fun σ => σ.symm j < σ.symm i),
        P ({ω | (D ω).perm = σ} ∩ {ω | (D ω).value ∈ {x | x (.rand (σ.symm i) (σ.symm j)) < degree / ((n : ℝ) - 1)}}) =
          (n.factorial : ℝ≥0∞)⁻¹ * ENNReal.ofReal (degree / ((n : ℝ) - 1)) := by
      intro σ _
      rw [hD.indep_perm σ _ (measurableSet_below σ (i, j) _), hD.perm σ]
      congr 1
      exact (prob_rand hD hp0 hp1 (σ.symm i) (σ.symm j)).1
    rw [Finset.sum_congr rfl hterm, Finset.sum_const, nsmul_eq_mul, ← mul_assoc, mul_comm, ENNReal.div_eq_inv_mul, mul_comm]
    congr 1
    have hc := card_half hij
    set k := ((Finset.univ : Finset (Equiv.Perm (Fin n))).filter fun σ => σ.symm j < σ.symm i).card with hk
    rw [← hc]
    have hk0 : (k : ℝ≥0∞) ≠ 0 := by
      have : n.factorial ≠ 0 := Nat.factorial_ne_zero n
      intro h
      have : k = 0 := by exact_mod_cast h
      omega
    push_cast
    rw [ENNReal.mul_inv (Or.inl (by norm_num)) (Or.inl (by norm_num)), mul_comm, mul_assoc,
      ENNReal.inv_mul_cancel hk0 (ENNReal.natCast_ne_top k), mul_one]
  · intro σ _ σ' _ hne
    rw [Function.onFun, Set.disjoint_left]
    rintro ω ⟨h1, -⟩ ⟨h2, -⟩
    exact hne (h1.symm.trans h2)
  · intro σ _
    exact (hD.measurable_perm σ).inter ((measurable_pi_lambda _ hD.measurable) (measurableSet_below σ (i, j) _))

/-- The number of edges at the node `v` of the structure that is generated; 0 if there is none. -/
def degreeOf (r : Except Err (Graph ℕ ℝ)) (v : ℕ) : ℕ := match r with
  | .ok g => degreeAt g v
  | .error _ => 0

theorem degreeAt_eq {lo hi : ℝ} {g : Graph ℕ ℝ} (hg : WeightedDag n lo hi g) (v : Fin n) :
    degreeAt g v = ((Finset.univ : Finset (Fin n × Fin n)).filter fun c =>
      (c.1 = v ∨ c.2 = v) ∧ ((c.1 : ℕ), (c.2 : ℕ)) ∈ pairs g).card := by
  classical
  have h1 : degreeAt g v = ((pairs g).filter fun e => e.1 = (v : ℕ) ∨ e.2 = (v : ℕ)).length := by
    unfold degreeAt pairs
    rw [List.filter_map, List.length_map]
    rfl
  rw [h1, ← List.toFinset_card_of_nodup (hg.simple.filter _)]
  symm
  refine Finset.card_bij (fun c _ => ((c.1 : ℕ), (c.2 : ℕ))) ?_ ?_ ?_
  · intro c hc
    simp only [Finset.mem_filter, Finset.mem_univ, true_and] at hc
    simp only [List.mem_toFinset, List.mem_filter, decide_eq_true_eq]
    refine ⟨hc.2, ?_⟩
    rcases hc.1 with h | h
    · exact Or.inl (congrArg Fin.val h)
    · exact Or.inr (congrArg Fin.val h)
  · intro c _ c' _ h
    obtain ⟨h1, h2⟩ := Prod.mk.inj h
    exact Prod.ext (Fin.ext h1) (Fin.ext h2)
  · intro e he
    simp only [List.mem_toFinset, List.mem_filter, decide_eq_true_eq] at he
    obtain ⟨e', he', rfl⟩ := List.mem_map.1 he.1
    obtain ⟨k1, k2⟩ := hg.ends e' he'
    refine ⟨(⟨e'.src, k1⟩, ⟨e'.dst, k2⟩), ?_, rfl⟩
    simp only [Finset.mem_filter, Finset.mem_univ, true_and]
    refine ⟨?_, he.1⟩
    rcases he.2 with h | h
    · exact Or.inl (Fin.ext h)
    · exact Or.inr (Fin.ext h)

/-- **C124**: the expected number of edges at every node of an Erdős-Rényi graph is the number that is asked for. -/
theorem erdos_degree (hD : RandomStructure m P D) {degree wMin wMax : ℝ} (hn : 2 ≤ n) (hd0 : 0 ≤ degree) (hd1 : degree ≤ n - 1)
    (h0 : wMin ≠ 0) (hw : |wMin| ≤ |wMax|) (v : Fin n) :
    ∫⁻ ω, (degreeOf (generateStructure n degree "erdos-renyi" wMin wMax (D ω)) v : ℝ≥0∞) ∂P = ENNReal.ofReal degree := by
  classical
  let T : Finset (Fin n × Fin n) := Finset.univ.filter fun c => (c.1 = v ∨ c.2 = v) ∧ c.1 ≠ c.2
  have hpoint : ∀ ω, (degreeOf (generateStructure n degree "erdos-renyi" wMin wMax (D ω)) v : ℝ≥0∞) =
      ∑ c ∈ T, (hasEdge n degree "erdos-renyi" wMin wMax D c).indicator 1 ω := by
    intro ω
    obtain ⟨g, hg⟩ := ((generateStructure_total n degree wMin wMax "erdos-renyi" (D ω)).1).2 ⟨hn, hw, Or.inl rfl⟩
    have hdag := generateStructure_dag (hD.uniform ω) hg
    have hmem : ∀ c, ω ∈ hasEdge n degree "erdos-renyi" wMin wMax D c ↔ ((c.1 : ℕ), (c.2 : ℕ)) ∈ pairs g := by
      intro c
      constructor
      · rintro ⟨g', h1, h2⟩
        rw [hg] at h1
        cases h1
        exact h2
      · exact fun h => ⟨g, hg, h⟩
    rw [hg]
    change ((degreeAt g v : ℕ) : ℝ≥0∞) = _
    rw [degreeAt_eq hdag v]
    have : ∀ c ∈ T, (hasEdge n degree "erdos-renyi" wMin wMax D c).indicator (1 : Ω → ℝ≥0∞) ω =
        if ((c.1 : ℕ), (c.2 : ℕ)) ∈ pairs g then 1 else 0 := by
      intro c _
      rw [Set.indicator_apply]
      simp only [hmem, Pi.one_apply]
    rw [Finset.sum_congr rfl this, ← Finset.sum_filter, Finset.sum_const, nsmul_eq_mul, mul_one, Finset.filter_filter]
    congr 2
    ext c
    simp only [Finset.mem_filter, Finset.mem_univ, true_and]
    constructor
    · rintro ⟨h1, h2⟩
      refine ⟨⟨h1, fun h => ?_⟩, h2⟩
      have := (generateStructure_erdos (hD.uniform ω) h0 hg c.1 c.2).1 h2
      rw [h] at this
      exact lt_irrefl _ this.1
    · rintro ⟨h1, h2⟩
      exact ⟨h1.1, h2⟩
  rw [lintegral_congr hpoint, lintegral_finsetSum']
  · have hterm : ∀ c ∈ T, ∫⁻ ω, (hasEdge n degree "erdos-renyi" wMin wMax D c).indicator 1 ω ∂P =
        ENNReal.ofReal (degree / ((n : ℝ) - 1)) / 2 := by
      intro c hc
      rw [lintegral_indicator_one (measurableSet_hasEdge hD hn h0 hw c)]
      exact erdos_edge hD hn hd0 hd1 h0 hw (Finset.mem_filter.1 hc).2.2
    rw [Finset.sum_congr rfl hterm, Finset.sum_const, nsmul_eq_mul]
    have hcard : T.card = 2 * (n - 1) := by
      have h1 : T = ((Finset.univ.erase v).image fun j => (v, j)) ∪ ((Finset.univ.erase v).image fun j => (j, v)) := by
        ext ⟨a, b⟩
        simp only [T, Finset.mem_filter, Finset.mem_univ, true_and, Finset.mem_union, Finset.mem_image, Finset.mem_erase, and_true,
          Prod.mk.injEq]
        constructor
        · rintro ⟨rfl | rfl, h⟩
          · exact Or.inl ⟨b, Ne.symm h, rfl, rfl⟩
          · exact Or.inr ⟨a, h, rfl, rfl⟩
        · rintro (⟨j, h, rfl, rfl⟩ | ⟨j, h, rfl, rfl⟩)
          · exact ⟨Or.inl rfl, Ne.symm h⟩
          · exact ⟨Or.inr rfl, h⟩
      rw [h1, Finset.card_union_of_disjoint, Finset.card_image_of_injective, Finset.card_image_of_injective,
        Finset.card_erase_of_mem (Finset.mem_univ _), Finset.card_univ, Fintype.card_fin]
      · omega
      · exact fun a b h => (Prod.mk.inj h).1
      · exact fun a b h => (Prod.mk.inj h).2
      · rw [Finset.disjoint_left]
        rintro ⟨a, b⟩ ha hb
        simp only [Finset.mem_image, Finset.mem_erase, Finset.mem_univ, and_true, Prod.mk.injEq] at ha hb
        obtain ⟨j, -, rfl, rfl⟩ := ha
        obtain ⟨j', h, rfl, -⟩ := hb
        exact h rfl
    rw [hcard]
    have hpos : (0 : ℝ) < (n : ℝ) - 1 := by
      have : (2 : ℝ) ≤ n := by exact_mod_cast hn
      linarith
    rw [← ENNReal.ofReal_natCast, show (2 : ℝ≥0∞) = ENNReal.ofReal 2 by norm_num, ← ENNReal.ofReal_div_of_pos (by norm_num),
      ← ENNReal.ofReal_mul (by positivity)]
    congr 1
    push_cast [Nat.cast_sub (by omega : 1 ≤ n)]
    field_simp
  · intro c _
    exact (measurable_one.indicator (measurableSet_hasEdge hD hn h0 hw c)).aemeasurable

/-- For uniform numbers, full graphs are Erdős-Rényi graphs of degree `n - 1`. -/
theorem full_eq (hn : 2 ≤ n) {r : Draws ℝ n} (hr : r.Uniform) (degree wMin wMax : ℝ) :
    generateStructure n degree "full" wMin wMax r = generateStructure n ((n : ℝ) - 1) "erdos-renyi" wMin wMax r := by
  have hpos : (0 : ℝ) < (n : ℝ) - 1 := by
    have : (2 : ℝ) ≤ n := by exact_mod_cast hn
    linarith
  have : edgeFlags degree "full" r = edgeFlags ((n : ℝ) - 1) "erdos-renyi" r := by
    unfold edgeFlags
    rw [if_neg (by decide), if_neg (by decide), if_pos rfl, if_pos rfl]
    dsimp only
    rw [div_self hpos.ne']
    congr 1
    ext i j
    unfold tril below
    rw [if_pos (hr.rand i j).2]
  unfold generateStructure
  rw [this]

/-- **C124**, full graphs: every pair of nodes is joined, and all orders have the same probability. -/
theorem full_law (hD : RandomStructure m P D) {degree wMin wMax : ℝ} (hn : 2 ≤ n) (h0 : wMin ≠ 0) (hw : |wMin| ≤ |wMax|)
    (G : Finset (Fin n × Fin n)) (B : Fin n × Fin n → Set ℝ) (hB : ∀ c ∈ G, MeasurableSet (B c)) :
    P {ω | ∃ g, generateStructure n degree "full" wMin wMax (D ω) = .ok g ∧ Shows g G B} =
      if n.choose 2 ≤ G.card then (orders G / n.factorial) * ∏ c ∈ G, weightLaw |wMin| |wMax| (B c) else 0 := by
  have hpos : (0 : ℝ) < (n : ℝ) - 1 := by
    have : (2 : ℝ) ≤ n := by exact_mod_cast hn
    linarith
  have h := erdos_law hD (degree := (n : ℝ) - 1) hn hpos.le le_rfl h0 hw G B hB
  have he : {ω | ∃ g, generateStructure n degree "full" wMin wMax (D ω) = .ok g ∧ Shows g G B} =
      {ω | ∃ g, generateStructure n ((n : ℝ) - 1) "erdos-renyi" wMin wMax (D ω) = .ok g ∧ Shows g G B} := by
    ext ω
    rw [Set.mem_ofPred_eq, full_eq hn (hD.uniform ω), Set.mem_ofPred_eq]
  rw [he, h, div_self hpos.ne']
  split_ifs with hc
  · rw [Nat.sub_eq_zero_of_le hc]
    simp
  · rw [sub_self, ENNReal.ofReal_zero, zero_pow (by omega)]
    simp

end Verif.Generators
