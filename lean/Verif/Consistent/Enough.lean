import Verif.Consistent.Props
import Verif.Consistent.Rows
import Verif.Consistent.Predict
import Mathlib.Probability.Moments.SubGaussian

/-!
# C142: how many rows are enough
-/

namespace Verif.Consistent

open Verif.BBN Function MeasureTheory ProbabilityTheory
open Verif.Network (FitArgs Net statesOf IsParentList IsConditional IsStructure Reach fitCpds cpds GoodArgs Heap DF estimate)

section
variable {Ω : Type} [MeasurableSpace Ω] {P : Measure Ω} [IsProbabilityMeasure P]

/-- Hoeffding's inequality for bounded independent variables with mean zero. -/
theorem hoeffding {n : ℕ} {Y : Fin n → Ω → ℝ} (hm : ∀ i, Measurable (Y i)) (hind : iIndepFun Y P) {a : ℝ} (hb : ∀ i ω, a ≤ Y i ω ∧ Y i ω ≤ a + 1)
    (h0 : ∀ i, ∫ ω, Y i ω ∂P = 0) {t : ℝ} (ht : 0 ≤ t) : P.real {ω | t ≤ ∑ i, Y i ω} ≤ Real.exp (-2 * t ^ 2 / n) := by
  have hs : ∀ i ∈ (Finset.univ : Finset (Fin n)), HasSubgaussianMGF (Y i) (1 / 4) P := by
    intro i _
    have := hasSubgaussianMGF_of_mem_Icc_of_integral_eq_zero (μ := P) (X := Y i) (a := a) (b := a + 1) (hm i).aemeasurable (ae_of_all _ fun ω => hb i ω) (h0 i)
    have e : (‖a + 1 - a‖₊ / 2) ^ 2 = (1 / 4 : NNReal) := by
      rw [add_sub_cancel_left, nnnorm_one]
      norm_num
    rw [e] at this
    exact this
  have h := HasSubgaussianMGF.measure_sum_ge_le_of_iIndepFun hind (c := fun _ => 1 / 4) hs ht
  refine h.trans (le_of_eq ?_)
  congr 1
  push_cast
  rw [Finset.sum_const, Finset.card_univ, Fintype.card_fin, nsmul_eq_mul]
  by_cases hn : (n : ℝ) = 0
  · rw [hn]; simp
  · field_simp
    ring

variable {V S : Type} [LinearOrder V] [LinearOrder S] {dom : V → List S} {vs : List V} {par : V → List V} {Q : V → S → List S → ℝ}

/-- A row with the given values. -/
def extend (vs : List V) (x₀ : V → S) (y : {v // v ∈ vs} → S) : V → S := fun v => if h : v ∈ vs then y ⟨v, h⟩ else x₀ v

theorem extend_apply {x₀ x : V → S} {v : V} (hv : v ∈ vs) : extend vs x₀ (fun u => x u) v = x v := dif_pos hv

/-- The probability of an event of one row. -/
theorem RowsFrom.event {ι : Type} {X : ι → Ω → V → S} (h : RowsFrom P dom vs par Q X) (hM : IsModel dom vs par Q) {x₀ : V → S}
    (A : (V → S) → Prop) [DecidablePred A] (hA : ∀ x y, (∀ v ∈ vs, x v = y v) → (A x ↔ A y)) (i : ι) :
    MeasurableSet {ω | A (X i ω)} ∧ P.real {ω | A (X i ω)} = massWith dom vs (truth vs par Q) x₀ A := by
  classical
  let _ : MeasurableSpace ({v // v ∈ vs} → S) := ⊤
  have hmeas : ∀ (B : (V → S) → Prop), (∀ x y, (∀ v ∈ vs, x v = y v) → (B x ↔ B y)) → MeasurableSet {ω | B (X i ω)} := by
    intro B hB
    have h1 : MeasurableSet ((fun ω (v : {v // v ∈ vs}) => X i ω v) ⁻¹' {y | B (extend vs x₀ y)}) := h.measurable i (t := {y | B (extend vs x₀ y)}) trivial
    have h2 : {ω | B (X i ω)} = (fun ω (v : {v // v ∈ vs}) => X i ω v) ⁻¹' {y | B (extend vs x₀ y)} := by
      ext ω
      exact hB _ _ fun v hv => (extend_apply hv).symm
    rw [h2]
    exact h1
  refine ⟨hmeas A hA, ?_⟩
  let W : Finset (V → S) := ((worlds dom vs x₀).filter fun x => A x).toFinset
  have hW : ∀ σ ∈ W, σ ∈ worlds dom vs x₀ ∧ A σ := fun σ hσ => by
    have := List.mem_filter.1 (List.mem_toFinset.1 hσ)
    exact ⟨this.1, by simpa using this.2⟩
  have hval : ∀ σ ∈ W, ∀ v ∈ vs, σ v ∈ dom v := fun σ hσ v hv => (worlds_valid (hW σ hσ).1 v).1 hv
  have hae : {ω | A (X i ω)} =ᵐ[P] ⋃ σ ∈ W, {ω | ∀ v ∈ vs, X i ω v = σ v} := by
    filter_upwards [h.states i] with ω hω
    apply propext
    change A (X i ω) ↔ ω ∈ ⋃ σ ∈ W, {ω | ∀ v ∈ vs, X i ω v = σ v}
    rw [Set.mem_iUnion₂]
    constructor
    · intro ha
      let σ : V → S := fun v => if v ∈ vs then X i ω v else x₀ v
      have hσ : ∀ v ∈ vs, X i ω v = σ v := fun v hv => (if_pos hv).symm
      refine ⟨σ, List.mem_toFinset.2 (List.mem_filter.2 ⟨?_, ?_⟩), hσ⟩
      · exact mem_worlds_of hM.nodup (fun v hv => by rw [← hσ v hv]; exact hω v hv) fun v hv => if_neg hv
      · simpa using (hA _ _ hσ).1 ha
    · rintro ⟨σ, hσ, he⟩
      exact (hA _ _ he).2 (hW σ hσ).2
  have hdis : (W : Set (V → S)).PairwiseDisjoint fun σ => {ω | ∀ v ∈ vs, X i ω v = σ v} := by
    intro σ hσ τ hτ hne
    refine Set.disjoint_left.2 fun ω h1 h2 => hne ?_
    exact worlds_inj (hW σ hσ).1 (hW τ hτ).1 fun v hv => (h1 v hv).symm.trans (h2 v hv)
  rw [measureReal_congr hae, measureReal_biUnion_finset hdis fun σ _ => hmeas (fun x => ∀ v ∈ vs, x v = σ v) fun x y e =>
    ⟨fun h v hv => by rw [← e v hv]; exact h v hv, fun h v hv => by rw [e v hv]; exact h v hv⟩]
  have h2 : ∀ σ ∈ W, P.real {ω | ∀ v ∈ vs, X i ω v = σ v} = truth vs par Q σ := by
    intro σ hσ
    rw [measureReal_def, h.law i σ (hval σ hσ), ENNReal.toReal_ofReal (hM.truth_nonneg (hval σ hσ))]
  rw [Finset.sum_congr rfl h2, massWith, List.sum_toFinset _ ((worlds_nodup hM.nodup hM.states x₀).filter _)]

/-- With high probability given states of the parents occur at least half as often as expected, and among these rows a state of the variable about as often as it
should. -/
theorem RowsFrom.family {n : ℕ} {X : Fin n → Ω → V → S} (h : RowsFrom P dom vs par Q X) (hM : IsModel dom vs par Q) {x₀ : V → S} (hx₀ : ∀ v ∈ vs, x₀ v ∈ dom v)
    {v : V} (hv : v ∈ vs) {s : S} (hs : s ∈ dom v) {z : V → S} (hz : ∀ u ∈ vs, z u ∈ dom u) {π₀ ε : ℝ} (hπ₀ : 0 < π₀)
    (hπ : π₀ ≤ massWith dom vs (truth vs par Q) x₀ (fun x => (par v).map x = (par v).map z)) (hε : 0 < ε) (hε1 : ε ≤ 1) :
    MeasurableSet {ω | n * π₀ / 2 < ((Finset.univ.filter fun i => (par v).map (X i ω) = (par v).map z).card : ℝ) ∧
      |(famCount par (fun i => X i ω) v ((par v).map z) s : ℝ) -
        Q v s ((par v).map z) * ((Finset.univ.filter fun i => (par v).map (X i ω) = (par v).map z).card : ℝ)| < ε * (n * π₀ / 2)} ∧
    P.real {ω | n * π₀ / 2 < ((Finset.univ.filter fun i => (par v).map (X i ω) = (par v).map z).card : ℝ) ∧
      |(famCount par (fun i => X i ω) v ((par v).map z) s : ℝ) -
        Q v s ((par v).map z) * ((Finset.univ.filter fun i => (par v).map (X i ω) = (par v).map z).card : ℝ)| < ε * (n * π₀ / 2)}ᶜ
      ≤ 3 * Real.exp (-(n * π₀ ^ 2 * ε ^ 2 / 2)) := by
  classical
  have hpv := hM.parents v hv
  let π : ℝ := massWith dom vs (truth vs par Q) x₀ (fun x => (par v).map x = (par v).map z)
  let q : ℝ := Q v s ((par v).map z)
  have hcfg := hM.config (v := v) (x := z) fun p hp => hz p (hpv p hp)
  have hq0 : 0 ≤ q := hM.nonneg v hv _ hcfg s hs
  have hq1 : q ≤ 1 := by
    have h1 := hM.sum v hv _ hcfg
    rw [← h1]
    exact List.single_le_sum (fun y hy => by
      obtain ⟨t, ht, rfl⟩ := List.mem_map.1 hy
      exact hM.nonneg v hv _ hcfg t ht) _ (List.mem_map_of_mem hs)
  have hpar : ∀ x y : V → S, (∀ u ∈ vs, x u = y u) → (par v).map x = (par v).map y := fun x y e => List.map_congr_left fun u hu => e u (hpv u hu)
  let C : (V → S) → Prop := fun x => (par v).map x = (par v).map z
  let B : (V → S) → Prop := fun x => x v = s ∧ (par v).map x = (par v).map z
  have hC : ∀ x y, (∀ u ∈ vs, x u = y u) → (C x ↔ C y) := fun x y e => by
    change _ = _ ↔ _ = _
    rw [hpar x y e]
  have hB : ∀ x y, (∀ u ∈ vs, x u = y u) → (B x ↔ B y) := fun x y e => by
    change _ = _ ∧ _ = _ ↔ _ = _ ∧ _ = _
    rw [hpar x y e, e v hv]
  have eC := fun i => h.event hM (x₀ := x₀) C hC i
  have eB := fun i => h.event hM (x₀ := x₀) B hB i
  have hcond := hM.conditional hv hs hx₀ z
  -- the summands
  let ind : Prop → ℝ := fun p => if p then 1 else 0
  have ind1 : ∀ {p : Prop}, p → ind p = 1 := fun hp => if_pos hp
  have ind0 : ∀ {p : Prop}, ¬ p → ind p = 0 := fun hp => if_neg hp
  let fN : (V → S) → ℝ := fun x => π - ind (C x)
  let fD : (V → S) → ℝ := fun x => ind (B x) - q * ind (C x)
  have hind : ∀ f : (V → S) → ℝ, (∀ x y, (∀ u ∈ vs, x u = y u) → f x = f y) → iIndepFun (fun i ω => f (X i ω)) P := by
    intro f hf
    have h1 := h.indep.comp (γ := fun _ => ℝ) (mγ := fun _ => inferInstance) (fun _ y => f (extend vs x₀ y)) (fun _ _ _ => trivial)
    have h2 : (fun (i : Fin n) ω => f (X i ω)) = fun i => (fun y => f (extend vs x₀ y)) ∘ (fun ω (u : {u // u ∈ vs}) => X i ω u) := by
      funext i ω
      exact hf _ _ fun v hv => (extend_apply hv).symm
    rw [h2]
    exact h1
  have fN_congr : ∀ x y, (∀ u ∈ vs, x u = y u) → fN x = fN y := fun x y e => by
    change π - ind (C x) = π - ind (C y)
    simp only [hC x y e]
  have fD_congr : ∀ x y, (∀ u ∈ vs, x u = y u) → fD x = fD y := fun x y e => by
    change ind (B x) - q * ind (C x) = ind (B y) - q * ind (C y)
    simp only [hC x y e, hB x y e]
  have ind_eq : ∀ (A : (V → S) → Prop) (i : Fin n), (fun ω => ind (A (X i ω))) = Set.indicator {ω | A (X i ω)} 1 := by
    intro A i
    funext ω
    change (if A (X i ω) then (1 : ℝ) else 0) = _
    rw [Set.indicator_apply]
    rfl
  have indm : ∀ (A : (V → S) → Prop) (i : Fin n), MeasurableSet {ω | A (X i ω)} → Measurable fun ω => ind (A (X i ω)) := by
    intro A i hA
    rw [ind_eq]
    exact measurable_one.indicator hA
  have indi : ∀ (A : (V → S) → Prop) (i : Fin n), MeasurableSet {ω | A (X i ω)} → Integrable (fun ω => ind (A (X i ω))) P ∧
      ∫ ω, ind (A (X i ω)) ∂P = P.real {ω | A (X i ω)} := by
    intro A i hA
    rw [ind_eq]
    exact ⟨(integrable_const (1 : ℝ)).indicator hA, integral_indicator_one hA⟩
  have mN : ∀ i, Measurable fun ω => fN (X i ω) := fun i => measurable_const.sub (indm C i (eC i).1)
  have mD : ∀ i, Measurable fun ω => fD (X i ω) := fun i => (indm B i (eB i).1).sub ((indm C i (eC i).1).const_mul q)
  have iN : ∀ i, ∫ ω, fN (X i ω) ∂P = 0 := by
    intro i
    change ∫ ω, (π - ind (C (X i ω))) ∂P = 0
    rw [integral_sub (integrable_const _) (indi C i (eC i).1).1, (indi C i (eC i).1).2, (eC i).2]
    simp [π, C]
  have iD : ∀ i, ∫ ω, fD (X i ω) ∂P = 0 := by
    intro i
    change ∫ ω, (ind (B (X i ω)) - q * ind (C (X i ω))) ∂P = 0
    rw [integral_sub (indi B i (eB i).1).1 ((indi C i (eC i).1).1.const_mul q), integral_const_mul, (indi C i (eC i).1).2, (indi B i (eB i).1).2, (eC i).2, (eB i).2]
    exact sub_eq_zero.2 hcond
  have bN : ∀ x, π - 1 ≤ fN x ∧ fN x ≤ π - 1 + 1 := by
    intro x
    change π - 1 ≤ π - ind (C x) ∧ π - ind (C x) ≤ π - 1 + 1
    by_cases hc : C x
    · rw [ind1 hc]
      constructor <;> linarith
    · rw [ind0 hc]
      constructor <;> linarith
  have bD : ∀ x, -q ≤ fD x ∧ fD x ≤ -q + 1 := by
    intro x
    change -q ≤ ind (B x) - q * ind (C x) ∧ ind (B x) - q * ind (C x) ≤ -q + 1
    by_cases hc : C x
    · rw [ind1 hc]
      by_cases hb : B x
      · rw [ind1 hb]
        constructor <;> linarith
      · rw [ind0 hb]
        constructor <;> linarith
    · rw [ind0 hc, ind0 fun hb => hc hb.2]
      constructor <;> linarith
  have h1 := hoeffding (P := P) mN (hind fN fN_congr) (a := π - 1) (fun i ω => bN _) iN (t := n * π₀ / 2) (by positivity)
  have h2 := hoeffding (P := P) mD (hind fD fD_congr) (a := -q) (fun i ω => bD _) iD (t := ε * (n * π₀ / 2)) (by positivity)
  have h3 := hoeffding (P := P) (Y := fun i ω => -fD (X i ω)) (fun i => (mD i).neg) (hind (fun x => -fD x) fun x y e => by rw [fD_congr x y e]) (a := q - 1)
    (fun i ω => ⟨by linarith [(bD (X i ω)).2], by linarith [(bD (X i ω)).1]⟩) (fun i => by rw [integral_neg, iD i, neg_zero]) (t := ε * (n * π₀ / 2)) (by positivity)
  -- counts
  have cC : ∀ ω, ∑ i, ind (C (X i ω)) = ((Finset.univ.filter fun i => (par v).map (X i ω) = (par v).map z).card : ℝ) := fun ω => by
    rw [Finset.card_filter]
    push_cast
    refine Finset.sum_congr rfl fun i _ => ?_
    by_cases hc : C (X i ω)
    · rw [ind1 hc, if_pos hc]
    · rw [ind0 hc, if_neg hc]
  have cB : ∀ ω, ∑ i, ind (B (X i ω)) = (famCount par (fun i => X i ω) v ((par v).map z) s : ℝ) := fun ω => by
    rw [famCount, Finset.card_filter]
    push_cast
    refine Finset.sum_congr rfl fun i _ => ?_
    by_cases hc : B (X i ω)
    · rw [ind1 hc, if_pos hc]
    · rw [ind0 hc, if_neg hc]
  have sN : ∀ ω, ∑ i, fN (X i ω) = n * π - ((Finset.univ.filter fun i => (par v).map (X i ω) = (par v).map z).card : ℝ) := by
    intro ω
    rw [← cC ω]
    change ∑ i, (π - ind (C (X i ω))) = _
    rw [Finset.sum_sub_distrib]
    simp
  have sD : ∀ ω, ∑ i, fD (X i ω) = (famCount par (fun i => X i ω) v ((par v).map z) s : ℝ) -
      q * ((Finset.univ.filter fun i => (par v).map (X i ω) = (par v).map z).card : ℝ) := by
    intro ω
    rw [← cC ω, ← cB ω]
    change ∑ i, (ind (B (X i ω)) - q * ind (C (X i ω))) = _
    rw [Finset.sum_sub_distrib, Finset.mul_sum]
  have hmN : Measurable fun ω => ((Finset.univ.filter fun i => (par v).map (X i ω) = (par v).map z).card : ℝ) := by
    have : (fun ω => ((Finset.univ.filter fun i => (par v).map (X i ω) = (par v).map z).card : ℝ)) = fun ω => ∑ i, ind (C (X i ω)) := funext fun ω => (cC ω).symm
    rw [this]
    exact Finset.measurable_sum _ fun i _ => indm C i (eC i).1
  have hmD : Measurable fun ω => (famCount par (fun i => X i ω) v ((par v).map z) s : ℝ) -
      q * ((Finset.univ.filter fun i => (par v).map (X i ω) = (par v).map z).card : ℝ) := by
    have : (fun ω => (famCount par (fun i => X i ω) v ((par v).map z) s : ℝ) -
      q * ((Finset.univ.filter fun i => (par v).map (X i ω) = (par v).map z).card : ℝ)) = fun ω => ∑ i, fD (X i ω) := funext fun ω => (sD ω).symm
    rw [this]
    exact Finset.measurable_sum _ fun i _ => mD i
  refine ⟨(measurableSet_lt measurable_const hmN).inter (measurableSet_lt (continuous_abs.measurable.comp hmD) measurable_const), ?_⟩
  have hsub : {ω | n * π₀ / 2 < ((Finset.univ.filter fun i => (par v).map (X i ω) = (par v).map z).card : ℝ) ∧
      |(famCount par (fun i => X i ω) v ((par v).map z) s : ℝ) -
        Q v s ((par v).map z) * ((Finset.univ.filter fun i => (par v).map (X i ω) = (par v).map z).card : ℝ)| < ε * (n * π₀ / 2)}ᶜ ⊆
      {ω | n * π₀ / 2 ≤ ∑ i, fN (X i ω)} ∪ ({ω | ε * (n * π₀ / 2) ≤ ∑ i, fD (X i ω)} ∪ {ω | ε * (n * π₀ / 2) ≤ ∑ i, -fD (X i ω)}) := by
    intro ω hω
    by_contra hcon
    rw [Set.mem_union, Set.mem_union, not_or, not_or] at hcon
    obtain ⟨g1, g2, g3⟩ := hcon
    have g1 : ¬ n * π₀ / 2 ≤ ∑ i, fN (X i ω) := g1
    have g2 : ¬ ε * (n * π₀ / 2) ≤ ∑ i, fD (X i ω) := g2
    have g3 : ¬ ε * (n * π₀ / 2) ≤ ∑ i, -fD (X i ω) := g3
    rw [Finset.sum_neg_distrib] at g3
    rw [sN] at g1
    rw [sD] at g2 g3
    refine hω ⟨?_, abs_lt.2 ⟨?_, ?_⟩⟩
    · have : (n : ℝ) * π₀ ≤ n * π := mul_le_mul_of_nonneg_left hπ (Nat.cast_nonneg _)
      linarith [not_le.1 g1]
    · linarith [not_le.1 g3]
    · linarith [not_le.1 g2]
  have hexp : Real.exp (-2 * (n * π₀ / 2) ^ 2 / n) ≤ Real.exp (-(n * π₀ ^ 2 * ε ^ 2 / 2)) ∧
      Real.exp (-2 * (ε * (n * π₀ / 2)) ^ 2 / n) ≤ Real.exp (-(n * π₀ ^ 2 * ε ^ 2 / 2)) := by
    by_cases hn : n = 0
    · subst hn
      simp
    · have hn0 : (0 : ℝ) < n := by exact_mod_cast Nat.pos_of_ne_zero hn
      have e1 : -2 * (n * π₀ / 2) ^ 2 / n = -(n * π₀ ^ 2 / 2) := by field_simp
      have e2 : -2 * (ε * (n * π₀ / 2)) ^ 2 / n = -(n * π₀ ^ 2 * ε ^ 2 / 2) := by field_simp
      rw [e1, e2]
      refine ⟨Real.exp_le_exp.2 ?_, le_rfl⟩
      have : ε ^ 2 ≤ 1 := by nlinarith
      have h5 : (0 : ℝ) ≤ n * π₀ ^ 2 := by positivity
      nlinarith
  calc P.real _ ≤ P.real ({ω | n * π₀ / 2 ≤ ∑ i, fN (X i ω)} ∪ ({ω | ε * (n * π₀ / 2) ≤ ∑ i, fD (X i ω)} ∪ {ω | ε * (n * π₀ / 2) ≤ ∑ i, -fD (X i ω)})) :=
        measureReal_mono hsub
    _ ≤ P.real {ω | n * π₀ / 2 ≤ ∑ i, fN (X i ω)} + (P.real {ω | ε * (n * π₀ / 2) ≤ ∑ i, fD (X i ω)} + P.real {ω | ε * (n * π₀ / 2) ≤ ∑ i, -fD (X i ω)}) :=
        (measureReal_union_le _ _).trans (add_le_add le_rfl (measureReal_union_le _ _))
    _ ≤ _ := by linarith [h1.trans hexp.1, h2.trans hexp.2, h3.trans hexp.2]

/-- Specification: the number of observations that the prior adds for each combination of states of the parents; `k` is the number of states of the node and `cfgs`
that of the combinations. -/
noncomputable def added (a : FitArgs ℝ) (k cfgs : ℕ) : ℝ :=
  if a.method = "MaximumLikelihoodEstimator" then 0 else if a.prior = some "K2" then k else a.ess.getD 0 / cfgs

/-- Specification: the number of entries of all tables of a network. -/
def entries (net : Net V S ℝ) (par : V → List V) : ℕ :=
  (net.nodes.map fun v => (statesOf net v).length * ((par v).map fun p => (statesOf net p).length).prod).sum

theorem smooth_close {N T α k q : ℝ} (hT : 0 < T) (hα : 0 ≤ α) (hk : 1 ≤ k) (hq0 : 0 ≤ q) (hq1 : q ≤ 1) :
    |(N + α) / (T + k * α) - q| ≤ |N - q * T| / T + k * α / T := by
  have hkα : 0 ≤ k * α := by positivity
  have hden : 0 < T + k * α := by positivity
  have e : (N + α) / (T + k * α) - q = ((N - q * T) + (α - q * (k * α))) / (T + k * α) := by
    field_simp
    ring
  have h1 : |α - q * (k * α)| ≤ k * α := by
    have : α ≤ k * α := by nlinarith
    have h2 : q * (k * α) ≤ k * α := by nlinarith
    have h3 : 0 ≤ q * (k * α) := by positivity
    rw [abs_le]
    constructor <;> linarith
  rw [e, abs_div, abs_of_pos hden, ← add_div]
  refine (div_le_div_of_nonneg_right ((abs_add_le _ _).trans (add_le_add le_rfl h1)) hden.le).trans ?_
  exact div_le_div_of_nonneg_left (by positivity) hT (by linarith)

theorem estimate_close {a : FitArgs ℝ} (hess : ∀ n, a.ess = some n → 0 < n) {ks : List S} (hks : ks ≠ []) {cfgs : ℕ} (hcfg : 0 < cfgs)
    {N : S → ℕ} {s : S} {q ε c : ℝ} (hq0 : 0 ≤ q) (hq1 : q ≤ 1) (hc : 0 < c) (hT : c < ((ks.map N).sum : ℕ))
    (hN : |(N s : ℝ) - q * ((ks.map N).sum : ℕ)| < ε * c) (hε : 0 < ε) : |estimate a ks cfgs N s - q| ≤ ε + added a ks.length cfgs / c := by
  have hT0 : (0 : ℝ) < ((ks.map N).sum : ℕ) := hc.trans hT
  have hk : (1 : ℝ) ≤ ks.length := by exact_mod_cast List.length_pos_iff.2 hks
  have hk0 : (0 : ℝ) < ks.length := by linarith
  have hcf : (0 : ℝ) < cfgs := by exact_mod_cast hcfg
  have main : ∀ α : ℝ, 0 ≤ α → |((N s : ℝ) + α) / (((ks.map N).sum : ℕ) + ks.length * α) - q| ≤ ε + ks.length * α / c := by
    intro α hα
    refine (smooth_close hT0 hα hk hq0 hq1).trans (add_le_add ?_ ?_)
    · rw [div_le_iff₀ hT0]
      exact hN.le.trans (mul_le_mul_of_nonneg_left hT.le hε.le)
    · exact div_le_div_of_nonneg_left (by positivity) hc hT.le
  unfold estimate added
  dsimp only
  by_cases h1 : a.method = "MaximumLikelihoodEstimator"
  · rw [if_pos h1, if_pos h1, if_neg (by intro h0; rw [h0] at hT0; simp at hT0)]
    have := main 0 le_rfl
    simpa using this
  · rw [if_neg h1, if_neg h1]
    by_cases h2 : a.prior = some "K2"
    · rw [if_pos h2, if_pos h2]
      have := main 1 zero_le_one
      rw [mul_one] at this
      exact this
    · rw [if_neg h2, if_neg h2]
      have hα : 0 ≤ a.ess.getD 0 / ((ks.length : ℝ) * cfgs) := by
        cases he : a.ess with
        | none => simp
        | some m => simp only [Option.getD_some]; have := hess m he; positivity
      have := main _ hα
      have e : (ks.length : ℝ) * (a.ess.getD 0 / ((ks.length : ℝ) * cfgs)) = a.ess.getD 0 / cfgs := by field_simp
      rw [e] at this
      rw [e]
      exact this

theorem worlds_length (dom : V → List S) (l : List V) (x : V → S) : (worlds dom l x).length = (l.map fun p => (dom p).length).prod := by
  induction l generalizing x with
  | nil => rfl
  | cons v l ih =>
    rw [worlds, List.length_flatMap, List.map_cons, List.prod_cons]
    simp only [ih]
    rw [List.map_const', List.sum_replicate, smul_eq_mul]

/-- **C142**: a number of rows that is enough.  If a network is fitted to `n ≥ 2 log (3 M / p) / (ε π₀)²` independent rows of a distribution with its structure, where
`M` is the number of entries of its tables, then with probability at least `1 - p` every entry for states of the parents that have at least the probability `π₀` is
within `ε` of the conditional probability, up to the effect of the prior, which is at most `2 c / (n π₀)` if it adds `c` observations. -/
theorem rows_enough {int : ℕ → S} (hint : Injective int) {ns : List V} {E : List (V × V)} (hE : IsStructure ns E) (hEne : E ≠ [])
    {net : Net V S ℝ} (hr : Reach int ns E net) {x₀ : V → S} (hx₀ : ∀ v ∈ net.nodes, x₀ v ∈ statesOf net v)
    {par : V → List V} (hpar : ∀ v ∈ net.nodes, IsParentList E v (par v)) {Q : V → S → List S → ℝ} (hQ : IsConditional net par Q)
    {a : FitArgs ℝ} (ha : GoodArgs a) (hess : ∀ n, a.ess = some n → 0 < n) {ε p π₀ : ℝ} (hε : 0 < ε) (hε1 : ε ≤ 1) (hp : 0 < p) (hπ₀ : 0 < π₀) {n : ℕ}
    (hn : 2 * Real.log (3 * entries net par / p) / (ε * π₀) ^ 2 ≤ n) {X : Fin n → Ω → V → S} (hX : RowsFrom P (statesOf net) net.nodes par Q X) :
    ∃ G : Set Ω, MeasurableSet G ∧ 1 - p ≤ P.real G ∧
      ∀ ω ∈ G, ∀ (h : Heap V S) (ref : ℕ) (df : DF V S), h[ref]? = some df → RowsAre net.nodes df (fun i => X i ω) →
      ∃ net' h' tables, fitCpds int net h ref a = (net', h', .ok ()) ∧ cpds net' = .ok tables ∧ tables.map Prod.fst = net.nodes ∧
        ∀ v t, (v, t) ∈ tables → t.parents = par v ∧ ∀ s ∈ statesOf net v, ∀ z : V → S, (∀ u ∈ net.nodes, z u ∈ statesOf net u) →
          π₀ ≤ massWith (statesOf net) net.nodes (truth net.nodes par Q) x₀ (fun x => (par v).map x = (par v).map z) →
          ∃ q, t.entry s ((par v).map z) = some q ∧ |q - Q v s ((par v).map z)| ≤
            ε + 2 * added a (statesOf net v).length ((par v).map fun p => (statesOf net p).length).prod / (n * π₀) := by
  classical
  by_cases hp1 : 1 ≤ p
  · exact ⟨∅, .empty, by simp; exact hp1, fun ω hω => absurd hω (by simp)⟩
  push Not at hp1
  have hw := hr.wf hE
  have hne : ∀ v ∈ net.nodes, statesOf net v ≠ [] := fun v hv => List.ne_nil_of_mem (hx₀ v hv)
  obtain ⟨e₀, he₀⟩ := List.exists_mem_of_ne_nil E hEne
  have hnode : e₀.1 ∈ net.nodes := by
    rw [hw.nodes]
    exact Verif.Network.mem_nodesOfEdges.2 ⟨e₀, he₀, Or.inl rfl⟩
  obtain ⟨states, hst⟩ : ∃ states, net.states = some states := by
    cases hst : net.states with
    | none => exact absurd (by rw [statesOf, hst]) (hne _ hnode)
    | some states => exact ⟨states, rfl⟩
  have hM := isModel_of hE hr (states_nodup hE hr) hpar hQ
  have hprod : ∀ v ∈ net.nodes, 0 < ((par v).map fun p => (statesOf net p).length).prod := fun v hv =>
    List.prod_pos fun m hm => by
      obtain ⟨p, hp, rfl⟩ := List.mem_map.1 hm
      exact List.length_pos_iff.2 (hne p (hM.parents v hv p hp))
  have hM1 : 1 ≤ entries net par := by
    refine le_trans ?_ (List.single_le_sum (fun _ _ => Nat.zero_le _) _ (List.mem_map_of_mem hnode))
    exact Nat.mul_pos (List.length_pos_iff.2 (hne _ hnode)) (hprod _ hnode)
  have hM1' : (1 : ℝ) ≤ entries net par := by exact_mod_cast hM1
  have hM0 : (0 : ℝ) < entries net par := by linarith
  have hlog : 0 < Real.log (3 * entries net par / p) := Real.log_pos (by rw [lt_div_iff₀ hp]; linarith)
  have hn0 : (0 : ℝ) < n := lt_of_lt_of_le (by positivity) hn
  have hexp : 3 * Real.exp (-(n * π₀ ^ 2 * ε ^ 2 / 2)) ≤ p / entries net par := by
    have h1 : Real.log (3 * entries net par / p) ≤ n * π₀ ^ 2 * ε ^ 2 / 2 := by
      rw [div_le_iff₀ (by positivity)] at hn
      nlinarith
    have h2 : Real.exp (-(n * π₀ ^ 2 * ε ^ 2 / 2)) ≤ (3 * entries net par / p)⁻¹ := by
      rw [← Real.exp_log (show (0 : ℝ) < 3 * entries net par / p by positivity), ← Real.exp_neg]
      exact Real.exp_le_exp.2 (neg_le_neg h1)
    calc 3 * Real.exp (-(n * π₀ ^ 2 * ε ^ 2 / 2)) ≤ 3 * (3 * entries net par / p)⁻¹ := by linarith
      _ = p / entries net par := by field_simp
  -- the good set
  let I : List (V × S × (V → S)) := net.nodes.flatMap fun v => (statesOf net v).flatMap fun s => (worlds (statesOf net) (par v) x₀).map fun z => (v, s, z)
  have hIlen : I.length = entries net par := by
    simp only [I, List.length_flatMap, List.length_map, worlds_length, entries, List.map_const', List.sum_replicate, smul_eq_mul]
  let π : V → (V → S) → ℝ := fun v z => massWith (statesOf net) net.nodes (truth net.nodes par Q) x₀ (fun x => (par v).map x = (par v).map z)
  let T : V × S × (V → S) → Set Ω := fun e => {ω | n * π₀ / 2 < ((Finset.univ.filter fun i => (par e.1).map (X i ω) = (par e.1).map e.2.2).card : ℝ) ∧
      |(famCount par (fun i => X i ω) e.1 ((par e.1).map e.2.2) e.2.1 : ℝ) -
        Q e.1 e.2.1 ((par e.1).map e.2.2) * ((Finset.univ.filter fun i => (par e.1).map (X i ω) = (par e.1).map e.2.2).card : ℝ)| < ε * (n * π₀ / 2)}
  let J : Finset (V × S × (V → S)) := (I.filter fun e => π₀ ≤ π e.1 e.2.2).toFinset
  have hJ : ∀ e ∈ J, MeasurableSet (T e) ∧ P.real (T e)ᶜ ≤ p / entries net par := by
    intro e he
    obtain ⟨he, hπe⟩ := List.mem_filter.1 (List.mem_toFinset.1 he)
    obtain ⟨v, hv, he⟩ := List.mem_flatMap.1 he
    obtain ⟨s, hs, he⟩ := List.mem_flatMap.1 he
    obtain ⟨z, hz, rfl⟩ := List.mem_map.1 he
    have hz' : ∀ u ∈ net.nodes, z u ∈ statesOf net u := by
      intro u hu
      by_cases hup : u ∈ par v
      · exact (worlds_valid hz u).1 hup
      · rw [(worlds_valid hz u).2 hup]
        exact hx₀ u hu
    have := hX.family hM hx₀ hv hs hz' hπ₀ (of_decide_eq_true hπe) hε hε1
    exact ⟨this.1, this.2.trans hexp⟩
  have hae : ∀ᵐ ω ∂P, ∀ i, ∀ v ∈ net.nodes, X i ω v ∈ statesOf net v := ae_all_iff.2 hX.states
  obtain ⟨N, hN1, hN2, hN3⟩ := exists_measurable_superset_of_null (ae_iff.1 hae)
  have hGm : MeasurableSet (⋂ e ∈ J, T e) := Finset.measurableSet_biInter _ fun e he => (hJ e he).1
  refine ⟨(⋂ e ∈ J, T e) \ N, hGm.diff hN2, ?_, fun ω hω h ref df hdf hrows => ?_⟩
  · have hbad : P.real (⋂ e ∈ J, T e)ᶜ ≤ p := by
      rw [Set.compl_iInter₂]
      refine (measureReal_biUnion_finset_le _ _).trans ((Finset.sum_le_sum fun e he => (hJ e he).2).trans ?_)
      rw [Finset.sum_const, nsmul_eq_mul]
      have hcard : (J.card : ℝ) ≤ entries net par := by
        have h1 : J.card ≤ I.length := (List.toFinset_card_le _).trans (List.length_filter_le _ _)
        rw [← hIlen]
        exact_mod_cast h1
      calc (J.card : ℝ) * (p / entries net par) ≤ entries net par * (p / entries net par) := mul_le_mul_of_nonneg_right hcard (by positivity)
        _ = p := by field_simp
    have h1 : P.real ((⋂ e ∈ J, T e) \ N) = P.real (⋂ e ∈ J, T e) := by
      rw [measureReal_def, measure_sdiff_null hN3, ← measureReal_def]
    rw [h1]
    have h2 := probReal_compl_eq_one_sub (μ := P) hGm
    linarith
  · have hR : ∀ i, ∀ v ∈ net.nodes, X i ω v ∈ statesOf net v := by
      by_contra hc
      exact hω.2 (hN1 hc)
    have hok := (Verif.Network.fit_ok_iff hE hr hdf a).2 ⟨by rw [hst]; simp, hrows.1, ha⟩
    obtain ⟨net', h', res, hf⟩ : ∃ net' h' res, fitCpds int net h ref a = (net', h', res) := ⟨_, _, _, rfl⟩
    rw [hf] at hok
    simp only at hok
    subst hok
    obtain ⟨-, -, -, tables, t1, t2, t3⟩ := Verif.Network.fit_cpds_correct hint hE hr hne hdf hf
    refine ⟨net', h', tables, hf, t1, t2, ?_⟩
    intro v t ht
    have hv : v ∈ net.nodes := by rw [← t2]; exact List.mem_map_of_mem ht
    obtain ⟨-, hpl, -, -, hent⟩ := t3 v t ht
    have hpv := Verif.Network.parentList_unique hpl (hpar v hv)
    refine ⟨hpv, fun s hs z hz hpos => ⟨_, hent s hs _ ?_, ?_⟩⟩
    · rw [hpv]
      exact hM.config fun q hq => hz q (hM.parents v hv q hq)
    · rw [hpv]
      simp only [observed_rows hR hrows hv (hM.parents v hv)]
      let z' : V → S := fun u => if u ∈ par v then z u else x₀ u
      have hzz : (par v).map z' = (par v).map z := List.map_congr_left fun u hu => if_pos hu
      have hmem : (v, s, z') ∈ J := by
        refine List.mem_toFinset.2 (List.mem_filter.2 ⟨List.mem_flatMap.2 ⟨v, hv, List.mem_flatMap.2 ⟨s, hs, List.mem_map.2 ⟨z', ?_, rfl⟩⟩⟩, ?_⟩)
        · exact mem_worlds_of (hM.parents_nodup v hv) (fun u hu => by
            have : z' u = z u := if_pos hu
            rw [this]
            exact hz u (hM.parents v hv u hu)) fun u hu => if_neg hu
        · have : π₀ ≤ π v z' := by
            change π₀ ≤ massWith _ _ _ _ (fun x => (par v).map x = (par v).map z')
            simp only [hzz]
            exact hpos
          simpa using this
      have hT : ω ∈ T (v, s, z') := Set.mem_iInter₂.1 hω.1 _ hmem
      obtain ⟨hT1, hT2⟩ := hT
      simp only [hzz] at hT1 hT2
      have hcfg := hM.config (v := v) (x := z) fun p hp => hz p (hM.parents v hv p hp)
      have hsum := famCount_sum (par := par) (R := fun i => X i ω) (hM.states v hv) (fun i => hR i v hv) ((par v).map z)
      rw [← hsum] at hT1 hT2
      have := estimate_close hess (hne v hv) (hprod v hv) (hM.nonneg v hv _ hcfg s hs) (by
        rw [← hM.sum v hv _ hcfg]
        exact List.single_le_sum (fun y hy => by
          obtain ⟨t, ht, rfl⟩ := List.mem_map.1 hy
          exact hM.nonneg v hv _ hcfg t ht) _ (List.mem_map_of_mem hs)) (by positivity) hT1 hT2 hε
      refine this.trans (le_of_eq ?_)
      congr 1
      field_simp

end

end Verif.Consistent
