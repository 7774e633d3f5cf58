import Verif.Generators.Law.StructCore
import Mathlib.MeasureTheory.Integral.Lebesgue.Add
import Mathlib.GroupTheory.Perm.Basic

/-!
# The law of Erdős-Rényi structures and of full structures (C124)
-/

namespace Verif.Generators

open MeasureTheory ProbabilityTheory Verif.Notears
open scoped ENNReal

variable {n m : ℕ} {Ω : Type} [MeasurableSpace Ω] {P : Measure Ω} [IsProbabilityMeasure P] {D : Ω → Draws ℝ n}

/-- The pairs below the diagonal. -/
def lowerPairs (n : ℕ) : Finset (Fin n × Fin n) := Finset.univ.filter fun c => c.2 < c.1

theorem card_lowerPairs (n : ℕ) : (lowerPairs n).card = n.choose 2 := by
  have h1 : (lowerPairs n).card = ∑ a : Fin n, (a : ℕ) := by
    unfold lowerPairs
    rw [Finset.card_eq_sum_ones, Finset.sum_filter, Fintype.sum_prod_type]
    apply Finset.sum_congr rfl
    intro a _
    rw [← Finset.sum_filter, ← Finset.card_eq_sum_ones]
    simp [Finset.filter_gt_eq_Iio]
  rw [h1, Fin.sum_univ_eq_sum_range (fun i => i), Finset.sum_range_id, Nat.choose_two_right]

theorem prob_rand (hD : RandomStructure m P D) {p : ℝ} (h0 : 0 ≤ p) (h1 : p ≤ 1) (a b : Fin n) :
    P {ω | (D ω).rand a b < p} = ENNReal.ofReal p ∧ P {ω | ¬ (D ω).rand a b < p} = ENNReal.ofReal (1 - p) := by
  have hm : Measurable fun ω => (D ω).rand a b := hD.measurable (.rand a b)
  constructor
  · rw [← uniformLaw_Iio h1, ← hD.rand a b, Measure.map_apply hm measurableSet_Iio]
    rfl
  · rw [← uniformLaw_Ici h0 h1, ← hD.rand a b, Measure.map_apply hm measurableSet_Ici]
    congr 1
    ext ω
    simp

/-- The law of the flags below the diagonal. -/
theorem erdos_flags (hD : RandomStructure m P D) {p : ℝ} (h0 : 0 ≤ p) (h1 : p ≤ 1) (σ : Equiv.Perm (Fin n)) (G : Finset (Fin n × Fin n)) :
    P {ω | ∀ a b, (b < a ∧ (D ω).value (.rand a b) < p) ↔ (σ a, σ b) ∈ G} =
      if ∀ e ∈ G, σ.symm e.2 < σ.symm e.1 then ENNReal.ofReal p ^ G.card * ENNReal.ofReal (1 - p) ^ (n.choose 2 - G.card) else 0 := by
  classical
  split_ifs with hG
  · let ev : Fin n × Fin n → Set (StructIx n → ℝ) := fun c => {x | x (.rand c.1 c.2) < p ↔ (σ c.1, σ c.2) ∈ G}
    have hset : {ω | ∀ a b, (b < a ∧ (D ω).value (.rand a b) < p) ↔ (σ a, σ b) ∈ G} =
        {ω | ∀ c ∈ lowerPairs n, (fun i => (D ω).value i) ∈ ev c} := by
      ext ω
      simp only [Set.mem_ofPred_eq, lowerPairs, Finset.mem_filter, Finset.mem_univ, true_and, ev]
      constructor
      · intro h c hc
        rw [← h c.1 c.2]
        exact ⟨fun h => ⟨hc, h⟩, fun h => h.2⟩
      · intro h a b
        by_cases hab : b < a
        · rw [← h (a, b) hab]
          simp [hab]
        · refine ⟨fun h => absurd h.1 hab, fun hm => absurd ?_ hab⟩
          simpa using hG _ hm
    have hev : ∀ c, MeasurableSet (ev c) := by
      intro c
      have hlt : MeasurableSet {x : StructIx n → ℝ | x (.rand c.1 c.2) < p} := measurableSet_lt (measurable_pi_apply _) measurable_const
      by_cases h : (σ c.1, σ c.2) ∈ G
      · have : ev c = {x | x (.rand c.1 c.2) < p} := by ext x; simp [ev, h]
        rw [this]; exact hlt
      · have : ev c = {x | x (.rand c.1 c.2) < p}ᶜ := by ext x; simp [ev, h]
        rw [this]; exact hlt.compl
    rw [hset, prob_blocks hD.measurable hD.indep (lowerPairs n) (fun c => {.rand c.1 c.2}) ?_ ev (fun c _ => hev c) ?_]
    · have hterm : ∀ c ∈ lowerPairs n, P {ω | (fun i => (D ω).value i) ∈ ev c} =
          if (σ c.1, σ c.2) ∈ G then ENNReal.ofReal p else ENNReal.ofReal (1 - p) := by
        intro c _
        obtain ⟨k1, k2⟩ := prob_rand hD h0 h1 c.1 c.2
        split_ifs with h
        · rw [← k1]
          congr 1
          ext ω
          simp [ev, h, Draws.value]
        · rw [← k2]
          congr 1
          ext ω
          simp [ev, h, Draws.value]
      rw [Finset.prod_congr rfl hterm, Finset.prod_ite, Finset.prod_const, Finset.prod_const]
      have hcard : ((lowerPairs n).filter fun c => (σ c.1, σ c.2) ∈ G).card = G.card := by
        refine Finset.card_bij (fun c _ => (σ c.1, σ c.2)) ?_ ?_ ?_
        · intro c hc
          exact (Finset.mem_filter.1 hc).2
        · intro c _ c' _ h
          obtain ⟨h1, h2⟩ := Prod.mk.inj h
          exact Prod.ext (σ.injective h1) (σ.injective h2)
        · intro e he
          refine ⟨(σ.symm e.1, σ.symm e.2), ?_, by simp⟩
          simp only [Finset.mem_filter, lowerPairs, Finset.mem_univ, true_and, Equiv.apply_symm_apply]
          exact ⟨hG e he, he⟩
      have htot := Finset.card_filter_add_card_filter_not (s := lowerPairs n) (fun c : Fin n × Fin n => (σ c.1, σ c.2) ∈ G)
      rw [hcard, card_lowerPairs] at htot
      rw [hcard]
      congr 2
      omega
    · intro c _ c' _ hne
      rw [Finset.disjoint_singleton]
      intro h
      injection h with h1 h2
      exact hne (Prod.ext h1 h2)
    · intro c _ x y hxy hx
      have := hxy (.rand c.1 c.2) (by simp)
      change y (.rand c.1 c.2) < p ↔ _
      rw [← this]
      exact hx
  · push Not at hG
    obtain ⟨e, he, hlt⟩ := hG
    have : {ω | ∀ a b, (b < a ∧ (D ω).value (.rand a b) < p) ↔ (σ a, σ b) ∈ G} = ∅ := by
      ext ω
      simp only [Set.mem_ofPred_eq, Set.mem_empty_iff_false, iff_false]
      intro h
      have := (h (σ.symm e.1) (σ.symm e.2)).2 (by simpa using he)
      exact absurd this.1 (not_lt.2 hlt)
    rw [this, measure_empty]

/-- Orders in which edges point forward and orders in which they point backward are equally many. -/
theorem card_backward (G : Finset (Fin n × Fin n)) :
    ((Finset.univ : Finset (Equiv.Perm (Fin n))).filter fun σ => ∀ e ∈ G, σ.symm e.2 < σ.symm e.1).card = orders G := by
  classical
  unfold orders
  refine Finset.card_bij (fun σ _ => σ.symm.trans Fin.revPerm) ?_ ?_ ?_
  · intro σ hσ
    simp only [Finset.mem_filter, Finset.mem_univ, true_and, Equiv.trans_apply, Fin.revPerm_apply, Fin.rev_lt_rev] at hσ ⊢
    exact hσ
  · intro σ _ τ _ h
    apply Equiv.symm_bijective.injective
    ext x
    have := DFunLike.congr_fun h x
    simp only [Equiv.trans_apply, Fin.revPerm_apply, Fin.rev_inj] at this
    rw [this]
  · intro τ hτ
    refine ⟨(τ.trans Fin.revPerm.symm).symm, ?_, ?_⟩
    · simp only [Finset.mem_filter, Finset.mem_univ, true_and, Equiv.symm_symm, Equiv.trans_apply, Fin.revPerm_symm, Fin.revPerm_apply,
        Fin.rev_lt_rev] at hτ ⊢
      exact hτ
    · ext x
      simp

/-- The flags of an Erdős-Rényi graph. -/
theorem edgeFlags_erdos (degree : ℝ) (r : Draws ℝ n) : ∃ f, edgeFlags degree "erdos-renyi" r = .ok f ∧
    ∀ a b, f a b ≠ 0 ↔ (b < a ∧ r.value (.rand a b) < degree / ((n : ℝ) - 1)) := by
  refine ⟨_, by unfold edgeFlags; rw [if_pos rfl], fun a b => ?_⟩
  unfold tril below
  by_cases h : b < a
  · by_cases h' : r.rand a b < degree / ((n : ℝ) - 1)
    · simp [h, h', Draws.value]
    · simp [h, h', Draws.value]
  · simp [h]

/-- **C124**, Erdős-Rényi graphs: the probability of every graph with every choice of sets for the weights.  Every pair of nodes is
joined with probability `p = degree / (n - 1)`, independently; the directions are those of a random order; the weights are independent and
uniform. -/
theorem erdos_law (hD : RandomStructure m P D) {degree wMin wMax : ℝ} (hn : 2 ≤ n) (hd0 : 0 ≤ degree) (hd1 : degree ≤ n - 1)
    (h0 : wMin ≠ 0) (hw : |wMin| ≤ |wMax|) (G : Finset (Fin n × Fin n)) (B : Fin n × Fin n → Set ℝ) (hB : ∀ c ∈ G, MeasurableSet (B c)) :
    P {ω | ∃ g, generateStructure n degree "erdos-renyi" wMin wMax (D ω) = .ok g ∧ Shows g G B} =
      ENNReal.ofReal (degree / ((n : ℝ) - 1)) ^ G.card * ENNReal.ofReal (1 - degree / ((n : ℝ) - 1)) ^ (n.choose 2 - G.card) *
        (orders G / n.factorial) * ∏ c ∈ G, weightLaw |wMin| |wMax| (B c) := by
  classical
  have hpos : (0 : ℝ) < (n : ℝ) - 1 := by
    have : (2 : ℝ) ≤ n := by exact_mod_cast hn
    linarith
  have hp0 : 0 ≤ degree / ((n : ℝ) - 1) := div_nonneg hd0 hpos.le
  have hp1 : degree / ((n : ℝ) - 1) ≤ 1 := (div_le_one hpos).2 hd1
  rw [law_general hD hn h0 hw (F := fun x a b => b < a ∧ x (.rand a b) < degree / ((n : ℝ) - 1)) (fun ω => edgeFlags_erdos degree (D ω))
    ((Finset.univ : Finset (Fin n × Fin n)).image fun c => .rand c.1 c.2) (by simp) ?_ ?_ G B hB]
  · congr 1
    rw [Finset.sum_congr rfl fun σ _ => by rw [erdos_flags hD hp0 hp1 σ G]]
    simp only [mul_ite, mul_zero]
    rw [← Finset.sum_filter, Finset.sum_const, card_backward, nsmul_eq_mul, ENNReal.div_eq_inv_mul]
    ring
  · intro x y hxy a b h
    refine ⟨h.1, ?_⟩
    rw [← hxy (.rand a b) (Finset.mem_image.2 ⟨(a, b), Finset.mem_univ _, rfl⟩)]
    exact h.2
  · intro a b
    by_cases h : b < a
    · have : {x : StructIx n → ℝ | b < a ∧ x (.rand a b) < degree / ((n : ℝ) - 1)} = {x | x (.rand a b) < degree / ((n : ℝ) - 1)} := by
        ext x; simp [h]
      rw [this]
      exact measurableSet_lt (measurable_pi_apply _) measurable_const
    · have : {x : StructIx n → ℝ | b < a ∧ x (.rand a b) < degree / ((n : ℝ) - 1)} = ∅ := by
        ext x; simp [h]
      rw [this]
      exact MeasurableSet.empty

end Verif.Generators
