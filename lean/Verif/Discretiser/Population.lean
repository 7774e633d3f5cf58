import Verif.Discretiser.Balance
import Verif.Consistent.Enough
import Mathlib.Probability.CDF
import Mathlib.MeasureTheory.Measure.Typeclasses.NullSingletonClass

/-!
# C144: quantile buckets learned from a sample split the population
-/

namespace Verif.Discretiser

open MeasureTheory ProbabilityTheory Set Filter Topology

section
variable {μ : Measure ℝ} [IsProbabilityMeasure μ] [NullSingletonClass μ]

theorem cdf_continuous : Continuous (cdf μ) := by
  rw [continuous_iff_continuousAt]
  intro a
  rw [(monotone_cdf μ).continuousAt_iff_leftLim_eq_rightLim, StieltjesFunction.rightLim_eq]
  have h := StieltjesFunction.measure_singleton (cdf μ) a
  rw [measure_cdf, measure_singleton] at h
  have h1 := ENNReal.ofReal_eq_zero.1 h.symm
  exact le_antisymm ((monotone_cdf μ).leftLim_le le_rfl) (by linarith)

theorem iio_eq_cdf (t : ℝ) : μ.real (Iio t) = cdf μ t := by
  rw [cdf_eq_real, measureReal_def, measureReal_def, measure_congr Iio_ae_eq_Iic]

/-- The least value that has a given fraction below it. -/
theorem least_level {c v : ℝ} (hc : 0 < c) (hv : c ≤ cdf μ v) : ∃ t, cdf μ t = c ∧ ∀ v, c ≤ cdf μ v → t ≤ v := by
  have hcl : IsClosed {t | c ≤ cdf μ t} := isClosed_le continuous_const cdf_continuous
  have hbdd : BddBelow {t | c ≤ cdf μ t} := by
    obtain ⟨t, ht⟩ := ((tendsto_cdf_atBot μ).eventually (gt_mem_nhds hc)).exists
    refine ⟨t, fun s hs => ?_⟩
    by_contra h
    have := monotone_cdf μ (not_le.1 h).le
    have hs : c ≤ cdf μ s := hs
    linarith
  have hmem := hcl.csInf_mem ⟨v, hv⟩ hbdd
  refine ⟨sInf {t | c ≤ cdf μ t}, le_antisymm ?_ hmem, fun s hs => csInf_le hbdd hs⟩
  refine le_of_tendsto (cdf_continuous.continuousAt.tendsto.mono_left (nhdsWithin_le_nhds (s := Iio (sInf {t | c ≤ cdf μ t})))) ?_
  filter_upwards [self_mem_nhdsWithin] with s hs
  by_contra h
  exact absurd (csInf_le hbdd (not_le.1 h).le) (not_le.2 hs)

/-- The greatest value that has a given fraction below it. -/
theorem greatest_level {c v : ℝ} (hc : c < 1) (hv : cdf μ v ≤ c) : ∃ t, cdf μ t = c ∧ ∀ v, cdf μ v ≤ c → v ≤ t := by
  have hcl : IsClosed {t | cdf μ t ≤ c} := isClosed_le cdf_continuous continuous_const
  have hbdd : BddAbove {t | cdf μ t ≤ c} := by
    obtain ⟨t, ht⟩ := ((tendsto_cdf_atTop μ).eventually (lt_mem_nhds hc)).exists
    refine ⟨t, fun s hs => ?_⟩
    by_contra h
    have := monotone_cdf μ (not_le.1 h).le
    have hs : cdf μ s ≤ c := hs
    linarith
  have hmem := hcl.csSup_mem ⟨v, hv⟩ hbdd
  refine ⟨sSup {t | cdf μ t ≤ c}, le_antisymm hmem ?_, fun s hs => le_csSup hbdd hs⟩
  refine ge_of_tendsto (cdf_continuous.continuousAt.tendsto.mono_left (nhdsWithin_le_nhds (s := Ioi (sSup {t | cdf μ t ≤ c})))) ?_
  filter_upwards [self_mem_nhdsWithin] with s hs
  by_contra h
  exact absurd (le_csSup hbdd (not_le.1 h).le) (not_le.2 hs)

variable {Ω : Type} [MeasurableSpace Ω] {P : Measure Ω} [IsProbabilityMeasure P] {n : ℕ} {X : Fin n → Ω → ℝ}

theorem countP_ofFn (f : Fin n → ℝ) (A : ℝ → Bool) : ((List.ofFn f).countP A : ℝ) = ∑ i, if A (f i) then (1 : ℝ) else 0 := by
  induction n with
  | zero => simp
  | succ n ih =>
    rw [List.ofFn_succ, List.countP_cons, Fin.sum_univ_succ, Nat.cast_add, ih]
    split <;> simp [add_comm]

/-- Data that are independent draws from `μ`. -/
structure Draws (P : Measure Ω) (μ : Measure ℝ) (X : Fin n → Ω → ℝ) : Prop where
  measurable : ∀ i, Measurable (X i)
  indep : iIndepFun X P
  law : ∀ i, P.map (X i) = μ

omit [IsProbabilityMeasure μ] [NullSingletonClass μ] [IsProbabilityMeasure P] in
theorem Draws.mean (h : Draws P μ X) (i : Fin n) {A : Set ℝ} (hA : MeasurableSet A) [DecidablePred (· ∈ A)] :
    ∫ ω, (if X i ω ∈ A then (1 : ℝ) else 0) ∂P = μ.real A := by
  have e : (fun ω => if X i ω ∈ A then (1 : ℝ) else 0) = (X i ⁻¹' A).indicator fun _ => 1 := by
    funext ω
    by_cases hω : X i ω ∈ A
    · rw [if_pos hω, indicator_of_mem (show ω ∈ X i ⁻¹' A from hω)]
    · rw [if_neg hω, indicator_of_notMem (show ω ∉ X i ⁻¹' A from hω)]
  rw [e, integral_indicator_const _ (h.measurable i hA), smul_eq_mul, mul_one, measureReal_def, measureReal_def, ← h.law i,
    Measure.map_apply (h.measurable i) hA]

theorem Draws.above (h : Draws P μ X) (hn : 0 < n) {w ε : ℝ} (h0 : 0 ≤ w) (h1 : w ≤ 1) (hε : 0 ≤ ε) :
    P {ω | w + (ε + 1 / n) ≤ cdf μ (qv ((List.ofFn fun i => X i ω).insertionSort (· ≤ ·)) w)} ≤ ENNReal.ofReal (Real.exp (-2 * n * ε ^ 2)) := by
  have hn' : (0 : ℝ) < n := by exact_mod_cast hn
  have hc : 0 < w + (ε + 1 / n) := by positivity
  by_cases hex : ∃ v, w + (ε + 1 / n) ≤ cdf μ v
  · obtain ⟨v, hv⟩ := hex
    obtain ⟨t, ht, hmin⟩ := least_level hc hv
    have hY : ∀ i, Measurable fun ω => w + (ε + 1 / n) - (if X i ω ∈ Iio t then (1 : ℝ) else 0) := fun i =>
      measurable_const.sub (Measurable.ite (h.measurable i measurableSet_Iio) measurable_const measurable_const)
    have hind : iIndepFun (fun i ω => w + (ε + 1 / n) - (if X i ω ∈ Iio t then (1 : ℝ) else 0)) P :=
      h.indep.comp (fun _ x => w + (ε + 1 / n) - (if x ∈ Iio t then (1 : ℝ) else 0)) fun _ =>
        measurable_const.sub (Measurable.ite measurableSet_Iio measurable_const measurable_const)
    have hoe := Consistent.hoeffding (P := P) hY hind (a := w + (ε + 1 / n) - 1) (fun i ω => by split <;> constructor <;> linarith)
      (fun i => by
        rw [integral_sub (integrable_const _) ?_, h.mean i measurableSet_Iio, iio_eq_cdf, ht, integral_const, probReal_univ, one_smul, sub_self]
        refine Integrable.of_bound (C := 1) (Measurable.ite (h.measurable i measurableSet_Iio) measurable_const measurable_const).aestronglyMeasurable ?_
        exact ae_of_all _ fun ω => by split <;> simp) (t := n * ε) (by positivity)
    have hexp : -2 * ((n : ℝ) * ε) ^ 2 / n = -2 * n * ε ^ 2 := by field_simp
    rw [hexp] at hoe
    rw [← ofReal_measureReal]
    refine ENNReal.ofReal_le_ofReal (le_trans (measureReal_mono fun ω hω => ?_) hoe)
    have hω : w + (ε + 1 / n) ≤ cdf μ (qv ((List.ofFn fun i => X i ω).insertionSort (· ≤ ·)) w) := hω
    have htv := hmin _ hω
    have hd : (List.ofFn fun i => X i ω) ≠ [] := by
      rw [ne_eq, List.ofFn_eq_nil_iff]; omega
    have hq := (quantile_counts hd h0 h1).1
    rw [List.length_ofFn, Nat.cast_sub (by omega), Nat.cast_one] at hq
    have hle : ((List.ofFn fun i => X i ω).countP (· < t) : ℝ) ≤ ((List.ofFn fun i => X i ω).countP (· < qv ((List.ofFn fun i => X i ω).insertionSort (· ≤ ·)) w) : ℝ) := by
      exact_mod_cast List.countP_mono_left fun x _ hx => by
        have hx : x < t := by simpa using hx
        simpa using lt_of_lt_of_le hx htv
    rw [countP_ofFn] at hle
    change n * ε ≤ ∑ i, (w + (ε + 1 / n) - (if X i ω ∈ Iio t then (1 : ℝ) else 0))
    rw [Finset.sum_sub_distrib, Finset.sum_const, Finset.card_univ, Fintype.card_fin, nsmul_eq_mul]
    have e : ∑ i, (if X i ω ∈ Iio t then (1 : ℝ) else 0) = ∑ i, (if decide (X i ω < t) then (1 : ℝ) else 0) :=
      Finset.sum_congr rfl fun i _ => by simp
    rw [e]
    have e2 : (n : ℝ) * (w + (ε + 1 / n)) = n * w + n * ε + 1 := by field_simp; ring
    rw [e2]
    nlinarith
  · have e : {ω | w + (ε + 1 / n) ≤ cdf μ (qv ((List.ofFn fun i => X i ω).insertionSort (· ≤ ·)) w)} = ∅ := by
      ext ω
      exact ⟨fun hω => hex ⟨_, hω⟩, fun hω => hω.elim⟩
    rw [e, measure_empty]
    exact zero_le

theorem Draws.belowLevel (h : Draws P μ X) (hn : 0 < n) {w ε : ℝ} (h0 : 0 ≤ w) (h1 : w ≤ 1) (hε : 0 ≤ ε) :
    P {ω | cdf μ (qv ((List.ofFn fun i => X i ω).insertionSort (· ≤ ·)) w) ≤ w - (ε + 1 / n)} ≤ ENNReal.ofReal (Real.exp (-2 * n * ε ^ 2)) := by
  have hn' : (0 : ℝ) < n := by exact_mod_cast hn
  have hc : w - (ε + 1 / n) < 1 := by
    have : 0 < 1 / (n : ℝ) := by positivity
    linarith
  by_cases hex : ∃ v, cdf μ v ≤ w - (ε + 1 / n)
  · obtain ⟨v, hv⟩ := hex
    obtain ⟨t, ht, hmax⟩ := greatest_level hc hv
    have hY : ∀ i, Measurable fun ω => (if X i ω ∈ Iic t then (1 : ℝ) else 0) - (w - (ε + 1 / n)) := fun i =>
      (Measurable.ite (h.measurable i measurableSet_Iic) measurable_const measurable_const).sub measurable_const
    have hind : iIndepFun (fun i ω => (if X i ω ∈ Iic t then (1 : ℝ) else 0) - (w - (ε + 1 / n))) P :=
      h.indep.comp (fun _ x => (if x ∈ Iic t then (1 : ℝ) else 0) - (w - (ε + 1 / n))) fun _ =>
        (Measurable.ite measurableSet_Iic measurable_const measurable_const).sub measurable_const
    have hoe := Consistent.hoeffding (P := P) hY hind (a := -(w - (ε + 1 / n))) (fun i ω => by split <;> constructor <;> linarith)
      (fun i => by
        rw [integral_sub ?_ (integrable_const _), h.mean i measurableSet_Iic, ← cdf_eq_real, ht, integral_const, probReal_univ, one_smul, sub_self]
        refine Integrable.of_bound (C := 1) (Measurable.ite (h.measurable i measurableSet_Iic) measurable_const measurable_const).aestronglyMeasurable ?_
        exact ae_of_all _ fun ω => by split <;> simp) (t := n * ε) (by positivity)
    have hexp : -2 * ((n : ℝ) * ε) ^ 2 / n = -2 * n * ε ^ 2 := by field_simp
    rw [hexp] at hoe
    rw [← ofReal_measureReal]
    refine ENNReal.ofReal_le_ofReal (le_trans (measureReal_mono fun ω hω => ?_) hoe)
    have hω : cdf μ (qv ((List.ofFn fun i => X i ω).insertionSort (· ≤ ·)) w) ≤ w - (ε + 1 / n) := hω
    have htv := hmax _ hω
    have hd : (List.ofFn fun i => X i ω) ≠ [] := by
      rw [ne_eq, List.ofFn_eq_nil_iff]; omega
    have hq := (quantile_counts hd h0 h1).2
    rw [List.length_ofFn, Nat.cast_sub (by omega), Nat.cast_one] at hq
    have hle : ((List.ofFn fun i => X i ω).countP (· ≤ qv ((List.ofFn fun i => X i ω).insertionSort (· ≤ ·)) w) : ℝ) ≤ ((List.ofFn fun i => X i ω).countP (· ≤ t) : ℝ) := by
      exact_mod_cast List.countP_mono_left fun x _ hx => by
        have hx : x ≤ qv ((List.ofFn fun i => X i ω).insertionSort (· ≤ ·)) w := by simpa using hx
        simpa using hx.trans htv
    rw [countP_ofFn _ fun x => decide (x ≤ t)] at hle
    change n * ε ≤ ∑ i, ((if X i ω ∈ Iic t then (1 : ℝ) else 0) - (w - (ε + 1 / n)))
    rw [Finset.sum_sub_distrib, Finset.sum_const, Finset.card_univ, Fintype.card_fin, nsmul_eq_mul]
    have e : ∑ i, (if X i ω ∈ Iic t then (1 : ℝ) else 0) = ∑ i, (if decide (X i ω ≤ t) then (1 : ℝ) else 0) :=
      Finset.sum_congr rfl fun i _ => by simp
    rw [e]
    have e2 : (n : ℝ) * (w - (ε + 1 / n)) = n * w - n * ε - 1 := by field_simp; ring
    rw [e2]
    nlinarith
  · have e : {ω | cdf μ (qv ((List.ofFn fun i => X i ω).insertionSort (· ≤ ·)) w) ≤ w - (ε + 1 / n)} = ∅ := by
      ext ω
      exact ⟨fun hω => hex ⟨_, hω⟩, fun hω => hω.elim⟩
    rw [e, measure_empty]
    exact zero_le

omit [NullSingletonClass μ] in
/-- The probability of a bucket. -/
theorem bucket_measure {d : Disc ℝ} (hr : Reach d) {points : List ℝ} (hp : d.numeric = some points) {k : ℕ} (hk : k ≤ points.length) :
    μ.real {x | transform d [x] = .ok [k]} = μ.real {x | under points k x} - μ.real {x | before points k x} := by
  have hs := hr.valid.numeric points hp
  have e : {x | transform d [x] = .ok [k]} = {x | under points k x} \ {x | before points k x} := by
    ext x
    rw [Set.mem_sdiff]
    change _ ↔ under points k x = true ∧ ¬ before points k x = true
    have h1 : transform d [x] = .ok [k] ↔ points.countP (· ≤ x) = k := by
      obtain ⟨out, g1, g2, -⟩ := transform_correct hr hp [x]
      obtain _ | ⟨⟨-, g4, -⟩, g5⟩ := g2
      cases g5
      change transform d [x] = .ok [k] ↔ _
      rw [g1, g4]
      constructor
      · intro h
        cases h
        rfl
      · intro h
        rw [h]
    have h2 := bucket_iff hs hk x
    rw [Bool.eq_iff_iff, decide_eq_true_iff, ← h1] at h2
    change transform d [x] = .ok [k] ↔ _
    rw [h2]
    simp
  have hm : ∀ j, MeasurableSet {x | under points j x} := by
    intro j
    rcases hj : points[j]? with _ | p
    · have : {x | under points j x} = univ := by
        ext x
        simp [under, hj]
      rw [this]
      exact MeasurableSet.univ
    · have : {x | under points j x} = Iio p := by
        ext x
        simp [under, hj]
      rw [this]
      exact measurableSet_Iio
  have hmb : MeasurableSet {x | before points k x} := by
    by_cases hk0 : k = 0
    · have : {x | before points k x} = ∅ := by
        ext x
        simp [before, hk0]
      rw [this]
      exact MeasurableSet.empty
    · have : {x | before points k x} = {x | under points (k - 1) x} := by
        ext x
        simp [before, hk0]
      rw [this]
      exact hm _
  have hsub : {x | before points k x} ⊆ {x | under points k x} := fun x hx => before_under hs k x hx
  rw [e, measureReal_sdiff hsub hmb]

/-- **C144**, for the population: fit a discretiser to `n` independent draws from a distribution without atoms.  The probability that not all
buckets have nearly the wanted share of the distribution, up to `2 (ε + 1 / n)`, is at most `2 m exp (-2 n ε²)`, where `m` is the number of split
points. -/
theorem population_balanced (h : Draws P μ X) (hn : 0 < n) {d : Disc ℝ} (hr : Reach d) {ws : List ℝ} (hw : Fractions d ws) {ε : ℝ} (hε : 0 ≤ ε) :
    P {ω | ¬ ∃ d', fit d (List.ofFn fun i => X i ω) = (d', .ok ()) ∧ ∀ k ≤ ws.length,
        |μ.real {x | transform d' [x] = .ok [k]} - share ws k| ≤ 2 * (ε + 1 / n)} ≤ ENNReal.ofReal (2 * ws.length * Real.exp (-2 * n * ε ^ 2)) := by
  classical
  have hn' : (0 : ℝ) < n := by exact_mod_cast hn
  have hδ : 0 ≤ ε + 1 / (n : ℝ) := by positivity
  have hd : ∀ ω, (List.ofFn fun i => X i ω) ≠ [] := fun ω => by rw [ne_eq, List.ofFn_eq_nil_iff]; omega
  have hrange : ∀ w ∈ ws, 0 ≤ w ∧ w ≤ 1 := (fractions_fit (data := [0]) hr.valid (by simp) hw).2.2
  have hsub : {ω | ¬ ∃ d', fit d (List.ofFn fun i => X i ω) = (d', .ok ()) ∧ ∀ k ≤ ws.length,
        |μ.real {x | transform d' [x] = .ok [k]} - share ws k| ≤ 2 * (ε + 1 / n)} ⊆
      ⋃ w ∈ ws.toFinset, ({ω | w + (ε + 1 / n) ≤ cdf μ (qv ((List.ofFn fun i => X i ω).insertionSort (· ≤ ·)) w)} ∪
        {ω | cdf μ (qv ((List.ofFn fun i => X i ω).insertionSort (· ≤ ·)) w) ≤ w - (ε + 1 / n)}) := by
    intro ω hω
    by_contra hgood
    apply hω
    let v : ℝ → ℝ := qv ((List.ofFn fun i => X i ω).insertionSort (· ≤ ·))
    have hgood : ∀ w ∈ ws, cdf μ (v w) < w + (ε + 1 / n) ∧ w - (ε + 1 / n) < cdf μ (v w) := by
      intro w hw
      by_contra hc
      refine hgood (mem_iUnion₂.2 ⟨w, List.mem_toFinset.2 hw, ?_⟩)
      rw [not_and_or, not_lt, not_lt] at hc
      exact hc
    obtain ⟨h1, h2, h3⟩ := fractions_fit hr.valid (hd ω) hw
    have hfit : fit d (List.ofFn fun i => X i ω) = ({ d with numeric := some (ws.map v) }, .ok ()) := by rw [fit, h1]
    refine ⟨_, hfit, fun k hk => ?_⟩
    rw [bucket_measure (hr.fit hfit) (points := ws.map v) rfl (by rw [List.length_map]; exact hk)]
    have hunder : ∀ j, |μ.real {x | under (ws.map v) j x} - ws.getD j 1| ≤ ε + 1 / n := by
      intro j
      by_cases hj : j < ws.length
      · have e : {x | under (ws.map v) j x} = Iio (v ws[j]) := by
          ext x
          change under (ws.map v) j x = true ↔ x < v ws[j]
          rw [under, List.getElem?_eq_getElem (by rw [List.length_map]; exact hj), List.getElem_map, Option.all_some, decide_eq_true_iff]
        rw [e, iio_eq_cdf, List.getD_eq_getElem _ _ hj, abs_le]
        have := hgood _ (List.getElem_mem hj)
        constructor <;> linarith
      · have e : {x | under (ws.map v) j x} = univ := by
          ext x
          change under (ws.map v) j x = true ↔ _
          rw [under, List.getElem?_eq_none (by rw [List.length_map]; omega), Option.all_none]
          simp
        rw [e, List.getD_eq_default _ _ (by omega), probReal_univ, sub_self, abs_zero]
        exact hδ
    have ha := abs_le.1 (hunder k)
    rw [share]
    by_cases hk0 : k = 0
    · have e : {x | before (ws.map v) k x} = ∅ := by
        ext x
        simp [before, hk0]
      rw [e, measureReal_empty, if_pos hk0, abs_le]
      constructor <;> linarith
    · have e : {x | before (ws.map v) k x} = {x | under (ws.map v) (k - 1) x} := by
        ext x
        simp [before, hk0]
      have hb := abs_le.1 (hunder (k - 1))
      rw [e, if_neg hk0, abs_le]
      constructor <;> linarith
  refine (measure_mono hsub).trans ((measure_biUnion_finset_le _ _).trans ?_)
  have hone : ∀ w ∈ ws.toFinset, P ({ω | w + (ε + 1 / n) ≤ cdf μ (qv ((List.ofFn fun i => X i ω).insertionSort (· ≤ ·)) w)} ∪
      {ω | cdf μ (qv ((List.ofFn fun i => X i ω).insertionSort (· ≤ ·)) w) ≤ w - (ε + 1 / n)}) ≤ ENNReal.ofReal (2 * Real.exp (-2 * n * ε ^ 2)) := by
    intro w hw
    obtain ⟨g1, g2⟩ := hrange w (List.mem_toFinset.1 hw)
    refine (measure_union_le _ _).trans ((add_le_add (h.above hn g1 g2 hε) (h.belowLevel hn g1 g2 hε)).trans (le_of_eq ?_))
    rw [← ENNReal.ofReal_add (Real.exp_pos _).le (Real.exp_pos _).le, two_mul]
  refine (Finset.sum_le_sum hone).trans ?_
  rw [Finset.sum_const, nsmul_eq_mul, ← ENNReal.ofReal_natCast, ← ENNReal.ofReal_mul (Nat.cast_nonneg _)]
  refine ENNReal.ofReal_le_ofReal ?_
  have hcard : (ws.toFinset.card : ℝ) ≤ ws.length := by exact_mod_cast List.toFinset_card_le _
  have := mul_le_mul_of_nonneg_right hcard (by positivity : 0 ≤ 2 * Real.exp (-2 * n * ε ^ 2))
  linarith

end

end Verif.Discretiser
