import Verif.Consistent.Props
import Mathlib.Algebra.BigOperators.Pi

/-!
# Rows with a given joint law are independent rows
-/

namespace Verif.Consistent

open Verif.BBN Function MeasureTheory ProbabilityTheory

section
set_option linter.unusedSectionVars false
variable {V S : Type} [LinearOrder V] [LinearOrder S] {dom : V → List S} {vs : List V} {par : V → List V} {Q : V → S → List S → ℝ}

theorem worlds_nodup (hvs : vs.Nodup) (hd : ∀ v ∈ vs, (dom v).Nodup) (x : V → S) : (worlds dom vs x).Nodup := by
  induction vs generalizing x with
  | nil => simp [worlds]
  | cons v vs ih =>
    rw [List.nodup_cons] at hvs
    rw [worlds, List.nodup_flatMap]
    refine ⟨fun s _ => ih hvs.2 (fun u hu => hd u (List.mem_cons_of_mem _ hu)) _, (hd v List.mem_cons_self).imp fun {s t} hst => ?_⟩
    rw [Function.onFun, List.disjoint_left]
    intro y hy hy'
    apply hst
    have h1 := (worlds_valid hy v).2 hvs.1
    have h2 := (worlds_valid hy' v).2 hvs.1
    rw [update_self] at h1 h2
    rw [← h1, h2]

theorem worlds_inj {x₀ f g : V → S} (hf : f ∈ worlds dom vs x₀) (hg : g ∈ worlds dom vs x₀) (h : ∀ v ∈ vs, f v = g v) : f = g := by
  funext v
  by_cases hv : v ∈ vs
  · exact h v hv
  · rw [(worlds_valid hf v).2 hv, (worlds_valid hg v).2 hv]

variable {Ω : Type} [MeasurableSpace Ω] {P : Measure Ω} [IsProbabilityMeasure P] {n : ℕ} {X : Fin n → Ω → V → S}

/-- If the probability of every table of rows is the product of the probabilities of its rows then the rows are independent. -/
theorem rowsFrom_of_joint (h : IsModel dom vs par Q) {x₀ : V → S} (hx₀ : ∀ v ∈ vs, x₀ v ∈ dom v)
    (hm : ∀ i, @Measurable _ _ _ ⊤ (fun ω (v : {v // v ∈ vs}) => X i ω v))
    (hj : ∀ σ : Fin n → V → S, (∀ i, ∀ v ∈ vs, σ i v ∈ dom v) →
      P {ω | ∀ i, ∀ v ∈ vs, X i ω v = σ i v} = ∏ i, ENNReal.ofReal (truth vs par Q (σ i))) : RowsFrom P dom vs par Q X := by
  classical
  let Y : Fin n → Ω → {v // v ∈ vs} → S := fun i ω v => X i ω v
  let W : Finset (V → S) := (worlds dom vs x₀).toFinset
  have hW : ∀ f ∈ W, ∀ v ∈ vs, f v ∈ dom v := fun f hf v hv => (worlds_valid (List.mem_toFinset.1 hf) v).1 hv
  let p : (V → S) → ENNReal := fun f => ENNReal.ofReal (truth vs par Q f)
  let res : (V → S) → {v // v ∈ vs} → S := fun f v => f v
  have htot : ∑ f ∈ W, p f = 1 := by
    rw [← ENNReal.ofReal_sum_of_nonneg fun f hf => h.truth_nonneg (hW f hf),
      List.sum_toFinset _ (worlds_nodup h.nodup h.states x₀), ← sumOver_worlds, h.total hx₀, ENNReal.ofReal_one]
  let cellE : (Fin n → V → S) → Set Ω := fun F => {ω | ∀ i, ∀ v ∈ vs, X i ω v = F i v}
  have hcm : ∀ F, MeasurableSet (cellE F) := by
    intro F
    have e : cellE F = ⋂ i, Y i ⁻¹' {y | ∀ v, y v = F i v} := by
      ext ω
      simp only [Set.mem_iInter, Set.mem_preimage]
      exact ⟨fun hω i v => hω i v v.2, fun hω i v hv => hω i ⟨v, hv⟩⟩
    rw [e]
    exact MeasurableSet.iInter fun i => hm i trivial
  -- the probability of a product of events
  have hsum : ∀ A : Fin n → Finset (V → S), (∀ i, A i ⊆ W) → P (⋃ F ∈ Fintype.piFinset A, cellE F) = ∏ i, ∑ f ∈ A i, p f := by
    intro A hA
    rw [measure_biUnion_finset _ fun F _ => hcm F]
    · rw [Finset.prod_univ_sum]
      refine Finset.sum_congr rfl fun F hF => ?_
      exact hj F fun i => hW _ (hA i (Fintype.mem_piFinset.1 hF i))
    · intro F hF G hG hne
      refine Set.disjoint_left.2 fun ω hω hω' => hne ?_
      funext i
      refine worlds_inj (List.mem_toFinset.1 (hA i (Fintype.mem_piFinset.1 hF i))) (List.mem_toFinset.1 (hA i (Fintype.mem_piFinset.1 hG i))) fun v hv => ?_
      rw [← hω i v hv, hω' i v hv]
  have hD : P (⋃ F ∈ Fintype.piFinset fun _ : Fin n => W, cellE F)ᶜ = 0 := by
    rw [prob_compl_eq_zero_iff (Finset.measurableSet_biUnion _ fun F _ => hcm F), hsum _ fun _ => Finset.Subset.refl _]
    simp [htot]
  have hprod : ∀ s : Fin n → Set ({v // v ∈ vs} → S), P (⋂ i, Y i ⁻¹' s i) = ∏ i, ∑ f ∈ W.filter (fun f => res f ∈ s i), p f := by
    intro s
    rw [← hsum _ fun i => Finset.filter_subset _ _, ← measure_inter_conull hD]
    congr 1
    ext ω
    simp only [Set.mem_inter_iff, Set.mem_iInter, Set.mem_iUnion, Fintype.mem_piFinset, Finset.mem_filter]
    have hY : ∀ F, ω ∈ cellE F → ∀ i, Y i ω = res (F i) := fun F hF i => funext fun v => hF i v v.2
    constructor
    · rintro ⟨h1, F, h2, h3⟩
      refine ⟨F, fun i => ⟨h2 i, ?_⟩, h3⟩
      rw [← hY F h3 i]
      exact h1 i
    · rintro ⟨F, h2, h3⟩
      refine ⟨fun i => ?_, F, fun i => (h2 i).1, h3⟩
      rw [Set.mem_preimage, hY F h3 i]
      exact (h2 i).2
  have hone : ∀ i (s : Set ({v // v ∈ vs} → S)), P (Y i ⁻¹' s) = ∑ f ∈ W.filter (fun f => res f ∈ s), p f := by
    intro i s
    have h1 := hprod (update (fun _ => Set.univ) i s)
    have e : (⋂ j, Y j ⁻¹' update (fun _ => Set.univ) i s j) = Y i ⁻¹' s := by
      ext ω
      simp only [Set.mem_iInter]
      constructor
      · intro hω
        have := hω i
        rwa [update_self] at this
      · intro hω j
        by_cases hji : j = i
        · subst hji; rw [update_self]; exact hω
        · rw [update_of_ne hji]; trivial
    rw [e] at h1
    rw [h1, Finset.prod_eq_single i]
    · simp only [update_self]
    · intro j _ hji
      simp only [update_of_ne hji, Set.mem_univ, Finset.filter_true]
      exact htot
    · intro hi
      exact absurd (Finset.mem_univ i) hi
  refine ⟨?_, hm, ?_, ?_⟩
  · intro i
    have h1 : ∀ᵐ ω ∂P, ω ∈ ⋃ F ∈ Fintype.piFinset fun _ : Fin n => W, cellE F := ae_iff.2 hD
    filter_upwards [h1] with ω hω v hv
    simp only [Set.mem_iUnion, Fintype.mem_piFinset] at hω
    obtain ⟨F, hF, hc⟩ := hω
    rw [hc i v hv]
    exact hW _ (hF i) v hv
  · rw [iIndepFun_iff_measure_inter_preimage_eq_mul]
    intro T sets _
    have h1 := hprod fun i => if i ∈ T then sets i else Set.univ
    have e : (⋂ i, Y i ⁻¹' (if i ∈ T then sets i else Set.univ)) = ⋂ i ∈ T, Y i ⁻¹' sets i := by
      ext ω
      simp only [Set.mem_iInter]
      constructor
      · intro hω i hi
        have := hω i
        rwa [if_pos hi] at this
      · intro hω i
        by_cases hi : i ∈ T
        · rw [if_pos hi]; exact hω i hi
        · rw [if_neg hi]; trivial
    rw [e] at h1
    change P (⋂ i ∈ T, Y i ⁻¹' sets i) = ∏ i ∈ T, P (Y i ⁻¹' sets i)
    rw [h1]
    have h2 : ∀ i, ∑ f ∈ W.filter (fun f => res f ∈ (if i ∈ T then sets i else Set.univ)), p f = if i ∈ T then P (Y i ⁻¹' sets i) else 1 := by
      intro i
      by_cases hi : i ∈ T
      · simp only [if_pos hi]; rw [hone]
      · simp only [if_neg hi, Set.mem_univ, Finset.filter_true]; exact htot
    simp only [h2]
    rw [Finset.prod_ite_mem, Finset.univ_inter]
  · intro i σ hσ
    have e : {ω | ∀ v ∈ vs, X i ω v = σ v} = Y i ⁻¹' {y | ∀ v, y v = σ v} := by
      ext ω
      exact ⟨fun hω v => hω v v.2, fun hω v hv => hω ⟨v, hv⟩⟩
    rw [e, hone]
    obtain ⟨σ', hσ', hs⟩ := Verif.Network.mem_worlds (dom := dom) (vs := vs) (x₀ := x₀) (y := σ) hσ
    have hfil : W.filter (fun f => res f ∈ {y : {v // v ∈ vs} → S | ∀ v, y v = σ v}) = {σ'} := by
      ext f
      rw [Finset.mem_filter, Finset.mem_singleton]
      constructor
      · rintro ⟨h1, h2⟩
        exact worlds_inj (List.mem_toFinset.1 h1) hσ' fun v hv => by rw [hs v hv]; exact h2 ⟨v, hv⟩
      · rintro rfl
        exact ⟨List.mem_toFinset.2 hσ', fun v => hs v v.2⟩
    have h3 : ∑ f ∈ W.filter (fun f => res f ∈ {y : {v // v ∈ vs} → S | ∀ v, y v = σ v}), p f = ENNReal.ofReal (truth vs par Q σ) := by
      rw [hfil, Finset.sum_singleton]
      change ENNReal.ofReal (truth vs par Q σ') = _
      rw [truth_congr h hs]
    refine Eq.trans (Finset.sum_congr ?_ fun _ _ => rfl) h3
    ext f
    simp only [Finset.mem_filter]

end

end Verif.Consistent
