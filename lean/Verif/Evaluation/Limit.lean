import Verif.Evaluation.PropsReport
import Verif.Consistent.Props
import Mathlib.Probability.StrongLaw

/-!
# C141: scores on a large test set are close to the true performance
-/

namespace Verif.Evaluation

open Verif.Network Verif.Str MeasureTheory ProbabilityTheory Filter Topology
open Verif.Consistent (RowsAre countP_ofFn)

section
variable {S : Type} [LinearOrder S] {Ω : Type} [MeasurableSpace Ω]

/-- The values of the variables `vs` in a row. -/
def valuesOf {V : Type} (vs : List V) (x : V → S) : {u // u ∈ vs} → S := fun u => x u

/-- Specification: the random test rows `X 0, X 1, …` hold states of the variables `vs`, are independent, and all have the same distribution.
The distribution need not be that of a network. -/
structure TestRows {V : Type} (P : Measure Ω) (dom : V → List S) (vs : List V) (X : ℕ → Ω → V → S) : Prop where
  states : ∀ i, ∀ᵐ ω ∂P, ∀ u ∈ vs, X i ω u ∈ dom u
  measurable : ∀ i, @Measurable _ _ _ ⊤ fun ω => valuesOf vs (X i ω)
  indep : iIndepFun (m := fun _ => ⊤) (fun i ω => valuesOf vs (X i ω)) P
  law : ∀ i (B : Set ({u // u ∈ vs} → S)), P {ω | valuesOf vs (X i ω) ∈ B} = P {ω | valuesOf vs (X 0 ω) ∈ B}

variable {V : Type} {P : Measure Ω} [IsProbabilityMeasure P] {dom : V → List S} {vs : List V} {X : ℕ → Ω → V → S}

/-- Averages over the rows converge to the expectation. -/
theorem TestRows.average (h : TestRows P dom vs X) (F : ({u // u ∈ vs} → S) → ℝ) {C : ℝ} (hF : ∀ y, |F y| ≤ C) :
    ∀ᵐ ω ∂P, Tendsto (fun n : ℕ => (∑ i : Fin n, F (valuesOf vs (X i ω))) / n) atTop (𝓝 (∫ ω, F (valuesOf vs (X 0 ω)) ∂P)) := by
  let _ : MeasurableSpace ({u // u ∈ vs} → S) := ⊤
  have hFm : Measurable F := fun _ _ => trivial
  let Y : ℕ → Ω → ℝ := fun i ω => F (valuesOf vs (X i ω))
  have hYm : ∀ i, Measurable (Y i) := fun i => hFm.comp (h.measurable i)
  have hint : Integrable (Y 0) P := Integrable.of_bound (hYm 0).aestronglyMeasurable C (ae_of_all _ fun ω => hF _)
  have hid : ∀ i, IdentDistrib (Y i) (Y 0) P P := by
    intro i
    have : IdentDistrib (fun ω => valuesOf vs (X i ω)) (fun ω => valuesOf vs (X 0 ω)) P P :=
      ⟨(h.measurable i).aemeasurable, (h.measurable 0).aemeasurable, Measure.ext fun B hB => by
        rw [Measure.map_apply (h.measurable i) hB, Measure.map_apply (h.measurable 0) hB]
        exact h.law i B⟩
    exact this.comp hFm
  have hind : Pairwise (Function.onFun (fun x1 x2 => IndepFun x1 x2 P) Y) := fun i j hij => (h.indep.indepFun hij).comp hFm hFm
  filter_upwards [strong_law_ae_real Y hint hind hid] with ω hω
  refine hω.congr fun n => ?_
  rw [← Fin.sum_univ_eq_sum_range (fun i => Y i ω)]

/-- The frequency of a property among the rows converges to its probability. -/
theorem TestRows.frequency (h : TestRows P dom vs X) (A : ({u // u ∈ vs} → S) → Prop) [DecidablePred A] :
    ∀ᵐ ω ∂P, Tendsto (fun n : ℕ => ((Finset.univ.filter fun i : Fin n => A (valuesOf vs (X i ω))).card : ℝ) / n) atTop
      (𝓝 (P.real {ω | A (valuesOf vs (X 0 ω))})) := by
  have h1 := h.average (fun y => if A y then 1 else 0) (C := 1) (fun y => by split_ifs <;> simp)
  have hA : MeasurableSet {ω | A (valuesOf vs (X 0 ω))} := h.measurable 0 (t := {y | A y}) trivial
  have e : ∫ ω, (if A (valuesOf vs (X 0 ω)) then (1 : ℝ) else 0) ∂P = P.real {ω | A (valuesOf vs (X 0 ω))} := by
    rw [← integral_indicator_one hA]
    refine integral_congr_ae (ae_of_all _ fun ω => ?_)
    simp only [Set.indicator_apply, Set.mem_setOf_eq, Pi.one_apply]
  rw [e] at h1
  filter_upwards [h1] with ω hω
  refine hω.congr fun n => ?_
  rw [Finset.card_filter]
  push_cast
  rfl

/-- Averages over pairs of rows converge to the expectation for two different rows. -/
theorem TestRows.pairs [DecidableEq V] (h : TestRows P dom vs X) (F : ({u // u ∈ vs} → S) → ({u // u ∈ vs} → S) → ℝ) :
    ∀ᵐ ω ∂P, Tendsto (fun n : ℕ => (∑ i : Fin n, ∑ j : Fin n, F (valuesOf vs (X i ω)) (valuesOf vs (X j ω))) / ((n : ℝ) * n)) atTop
      (𝓝 (∫ ω, F (valuesOf vs (X 0 ω)) (valuesOf vs (X 1 ω)) ∂P)) := by
  classical
  let _ : MeasurableSpace ({u // u ∈ vs} → S) := ⊤
  let D : Finset ({u // u ∈ vs} → S) := Fintype.piFinset fun u => (dom u).toFinset
  have hD : ∀ i, ∀ᵐ ω ∂P, valuesOf vs (X i ω) ∈ D := by
    intro i
    filter_upwards [h.states i] with ω hω
    exact Fintype.mem_piFinset.2 fun u => List.mem_toFinset.2 (hω u u.2)
  have hsplit : ∀ x ∈ D, ∀ y ∈ D, F x y = ∑ c ∈ D, ∑ d ∈ D, (if x = c then (1 : ℝ) else 0) * (if y = d then 1 else 0) * F c d := by
    intro x hx y hy
    simp only [ite_mul, one_mul, zero_mul]
    rw [Finset.sum_eq_single x, Finset.sum_eq_single y]
    · simp
    · intro d _ hd; simp [Ne.symm hd]
    · exact fun h => absurd hy h
    · intro c _ hc; simp [Ne.symm hc]
    · exact fun h => absurd hx h
  let p : ({u // u ∈ vs} → S) → ℝ := fun c => P.real {ω | valuesOf vs (X 0 ω) = c}
  have hfreq : ∀ᵐ ω ∂P, ∀ c ∈ D, Tendsto (fun n : ℕ => (∑ i : Fin n, if valuesOf vs (X i ω) = c then (1 : ℝ) else 0) / n) atTop (𝓝 (p c)) := by
    rw [Filter.eventually_all_finset]
    intro c _
    filter_upwards [h.frequency fun y => y = c] with ω hω
    refine hω.congr fun n => ?_
    rw [Finset.card_filter]
    push_cast
    rfl
  -- the expectation
  have hA : ∀ i c, MeasurableSet {ω | valuesOf vs (X i ω) = c} := fun i c => h.measurable i (t := {y | y = c}) trivial
  have hmean : ∫ ω, F (valuesOf vs (X 0 ω)) (valuesOf vs (X 1 ω)) ∂P = ∑ c ∈ D, ∑ d ∈ D, p c * p d * F c d := by
    have h1 : ∫ ω, F (valuesOf vs (X 0 ω)) (valuesOf vs (X 1 ω)) ∂P = ∫ ω, ∑ c ∈ D, ∑ d ∈ D,
        Set.indicator ({ω | valuesOf vs (X 0 ω) = c} ∩ {ω | valuesOf vs (X 1 ω) = d}) (fun _ => F c d) ω ∂P := by
      refine integral_congr_ae ?_
      filter_upwards [hD 0, hD 1] with ω h0 h1
      rw [hsplit _ h0 _ h1]
      refine Finset.sum_congr rfl fun c _ => Finset.sum_congr rfl fun d _ => ?_
      by_cases e1 : valuesOf vs (X 0 ω) = c
      · by_cases e2 : valuesOf vs (X 1 ω) = d
        · rw [Set.indicator_of_mem (show ω ∈ {ω | valuesOf vs (X 0 ω) = c} ∩ {ω | valuesOf vs (X 1 ω) = d} from ⟨e1, e2⟩)]
          simp [e1, e2]
        · rw [Set.indicator_of_notMem (fun h => e2 h.2)]
          simp [e2]
      · rw [Set.indicator_of_notMem (fun h => e1 h.1)]
        simp [e1]
    have hint : ∀ c d, Integrable (Set.indicator ({ω | valuesOf vs (X 0 ω) = c} ∩ {ω | valuesOf vs (X 1 ω) = d}) (fun _ => F c d)) P :=
      fun c d => (integrable_const _).indicator ((hA 0 c).inter (hA 1 d))
    rw [h1, integral_finsetSum _ fun c _ => integrable_finsetSum _ fun d _ => hint c d]
    refine Finset.sum_congr rfl fun c _ => ?_
    rw [integral_finsetSum _ fun d _ => hint c d]
    refine Finset.sum_congr rfl fun d _ => ?_
    rw [integral_indicator_const _ ((hA 0 c).inter (hA 1 d)), smul_eq_mul]
    congr 1
    have hi := (h.indep.indepFun (show (0 : ℕ) ≠ 1 by norm_num)).measure_inter_preimage_eq_mul {y | y = c} {y | y = d} trivial trivial
    have hl : P {ω | valuesOf vs (X 1 ω) = d} = P {ω | valuesOf vs (X 0 ω) = d} := h.law 1 {y | y = d}
    change P.real ((fun ω => valuesOf vs (X 0 ω)) ⁻¹' {y | y = c} ∩ (fun ω => valuesOf vs (X 1 ω)) ⁻¹' {y | y = d}) = _
    rw [measureReal_def, hi, ENNReal.toReal_mul]
    change _ * (P {ω | valuesOf vs (X 1 ω) = d}).toReal = _
    rw [hl]
    rfl
  rw [hmean]
  filter_upwards [hfreq, ae_all_iff.2 hD] with ω hω hDω
  have h2 : Tendsto (fun n : ℕ => ∑ c ∈ D, ∑ d ∈ D, ((∑ i : Fin n, if valuesOf vs (X i ω) = c then (1 : ℝ) else 0) / n) *
      ((∑ i : Fin n, if valuesOf vs (X i ω) = d then (1 : ℝ) else 0) / n) * F c d) atTop (𝓝 (∑ c ∈ D, ∑ d ∈ D, p c * p d * F c d)) :=
    tendsto_finsetSum _ fun c hc => tendsto_finsetSum _ fun d hd => ((hω c hc).mul (hω d hd)).mul_const _
  refine h2.congr fun n => ?_
  have h3 : ∑ i : Fin n, ∑ j : Fin n, F (valuesOf vs (X i ω)) (valuesOf vs (X j ω)) = ∑ c ∈ D, ∑ d ∈ D,
      (∑ i : Fin n, if valuesOf vs (X i ω) = c then (1 : ℝ) else 0) * (∑ i : Fin n, if valuesOf vs (X i ω) = d then (1 : ℝ) else 0) * F c d := by
    simp only [fun i j : Fin n => hsplit _ (hDω i) _ (hDω j)]
    calc ∑ i : Fin n, ∑ j : Fin n, ∑ c ∈ D, ∑ d ∈ D, (if valuesOf vs (X i ω) = c then (1 : ℝ) else 0) * (if valuesOf vs (X j ω) = d then (1 : ℝ) else 0) * F c d
        = ∑ i : Fin n, ∑ c ∈ D, ∑ d ∈ D, ∑ j : Fin n, (if valuesOf vs (X i ω) = c then (1 : ℝ) else 0) * (if valuesOf vs (X j ω) = d then (1 : ℝ) else 0) * F c d := by
          refine Finset.sum_congr rfl fun i _ => ?_
          rw [Finset.sum_comm]
          refine Finset.sum_congr rfl fun c _ => ?_
          rw [Finset.sum_comm]
      _ = ∑ c ∈ D, ∑ d ∈ D, ∑ i : Fin n, ∑ j : Fin n, (if valuesOf vs (X i ω) = c then (1 : ℝ) else 0) * (if valuesOf vs (X j ω) = d then (1 : ℝ) else 0) * F c d := by
          rw [Finset.sum_comm]
          refine Finset.sum_congr rfl fun c _ => ?_
          rw [Finset.sum_comm]
      _ = _ := by
          refine Finset.sum_congr rfl fun c _ => Finset.sum_congr rfl fun d _ => ?_
          rw [Finset.sum_mul_sum, Finset.sum_mul]
          refine Finset.sum_congr rfl fun i _ => ?_
          rw [Finset.sum_mul]
  have h4 : ∀ f : ({u // u ∈ vs} → S) → ({u // u ∈ vs} → S) → ℝ, (∑ c ∈ D, ∑ d ∈ D, f c d) / ((n : ℝ) * n) = ∑ c ∈ D, ∑ d ∈ D, f c d / ((n : ℝ) * n) := by
    intro f
    simp only [Finset.sum_div]
  rw [h3, h4]
  refine Finset.sum_congr rfl fun c _ => Finset.sum_congr rfl fun d _ => ?_
  by_cases hn : (n : ℝ) = 0
  · simp [hn]
  · field_simp

end

section
variable {S : Type} [LinearOrder S]

/-- Specification: according to the table `t`, `s` is a most likely state given the states `ps` of the parents, and the least of them. -/
def MostLikely {V : Type} (states : List S) (t : Table V S ℝ) (ps : List S) (s : S) : Prop :=
  s ∈ states ∧ ∃ x, t.entry s ps = some x ∧ ∀ s' ∈ states, ∃ y, t.entry s' ps = some y ∧ y ≤ x ∧ (s' < s → y < x)

theorem MostLikely.unique {V : Type} {states : List S} {t : Table V S ℝ} {ps : List S} {s s' : S} (h : MostLikely states t ps s) (h' : MostLikely states t ps s') : s = s' := by
  have key : ∀ s s', MostLikely states t ps s → MostLikely states t ps s' → ¬ s < s' := by
    rintro s s' ⟨hs, x, hx, h1⟩ ⟨hs', x', hx', h2⟩ hlt
    obtain ⟨y, hy, hyx, -⟩ := h1 s' hs'
    obtain ⟨y', hy', -, hyx'⟩ := h2 s hs
    rw [hx'] at hy
    rw [hx] at hy'
    cases hy
    cases hy'
    exact absurd (hyx' hlt) (not_lt.2 hyx)
  exact le_antisymm (not_lt.1 (key s' s h' h)) (not_lt.1 (key s s' h h'))

/-- The rule by which the network predicts. -/
theorem rule_exists {V : Type} (states : List S) (t : Table V S ℝ) (hne : states ≠ []) :
    ∃ g : List S → S, ∀ ps s, MostLikely states t ps s → g ps = s := by
  classical
  obtain ⟨s₀, -⟩ := List.exists_mem_of_ne_nil _ hne
  refine ⟨fun ps => if hb : ∃ s, MostLikely states t ps s then hb.choose else s₀, fun ps s hs => ?_⟩
  have hb : ∃ s, MostLikely states t ps s := ⟨s, hs⟩
  simp only [dif_pos hb]
  exact hb.choose_spec.unique hs

/-- A row with the given values. -/
def rowOf {v : Str} {l : List Str} (y : {u // u ∈ v :: l} → S) : Str → S := fun u => if h : u ∈ v :: l then y ⟨u, h⟩ else y ⟨v, List.mem_cons_self⟩

omit [LinearOrder S] in
theorem rowOf_self {v : Str} {l : List Str} (x : Str → S) : rowOf (valuesOf (v :: l) x) v = x v := by
  simp [rowOf, valuesOf]

omit [LinearOrder S] in
theorem rowOf_map {v : Str} {l : List Str} (x : Str → S) : l.map (rowOf (valuesOf (v :: l) x)) = l.map x :=
  List.map_congr_left fun u hu => by simp [rowOf, valuesOf, hu]

theorem countP_zip_ofFn {α β : Type} {n : ℕ} (f : Fin n → α) (g : Fin n → β) (p : α × β → Prop) [DecidablePred p] :
    ((List.ofFn f).zip (List.ofFn g)).countP (fun q => decide (p q)) = (Finset.univ.filter fun i => p (f i, g i)).card := by
  rw [← countP_ofFn (fun i => (f i, g i)) p]
  congr 1
  apply List.ext_getElem <;> simp

theorem f1_eq (a b c : ℕ) (hb : a ≤ b) (hc : a ≤ c) :
    (if (fraction a b + fraction a c : ℝ) = 0 then 0 else 2 * fraction a b * fraction a c / (fraction a b + fraction a c)) = 2 * (a : ℝ) / (b + c) := by
  have e : ∀ d : ℕ, (fraction a d : ℝ) = a / d := by
    intro d
    unfold fraction
    split_ifs with h
    · simp [h]
    · rfl
  rw [e, e]
  rcases Nat.eq_zero_or_pos a with h | h
  · simp [h]
  · have h1 : (0 : ℝ) < a := by exact_mod_cast h
    have h2 : (0 : ℝ) < b := by exact_mod_cast h.trans_le hb
    have h3 : (0 : ℝ) < c := by exact_mod_cast h.trans_le hc
    rw [if_neg (by positivity)]
    field_simp
    ring

theorem fraction_eq (a b : ℕ) {n : ℕ} (hn : 0 < n) : (fraction a b : ℝ) = (a / n) / (b / n) := by
  have h : (n : ℝ) ≠ 0 := by positivity
  unfold fraction
  split_ifs with hb
  · simp [hb]
  · have : (b : ℝ) ≠ 0 := by exact_mod_cast hb
    field_simp


variable {Ω : Type} [MeasurableSpace Ω] {P : Measure Ω} [IsProbabilityMeasure P]

/-- **C141**: the scores of a fitted network on more and more independent test rows converge to the true performance of its predictions.
`g` is the rule that returns the state which the CPD makes most likely.  Almost surely, from some number of rows on, `classification_report`
on the first `n` rows returns, within `ε`: the share of each state; the precision, that is the probability of the state among the rows for which it is predicted;
the recall, that is the probability that it is predicted among the rows where it is the true state; the F1 score; and the probability of a right prediction.
The distribution of the test rows is arbitrary. -/
theorem report_converges {int : ℕ → S} (hint : Function.Injective int) {ns : List Str}
    {E : List (Str × Str)} (hE : IsStructure ns E) {net net' : Net Str S ℝ} (hr : Reach int ns E net)
    (hne : ∀ v ∈ net.nodes, statesOf net v ≠ []) {h₀ h₁ : Heap Str S} {ref₀ : ℕ} {a : FitArgs ℝ}
    (hf : fitCpds int net h₀ ref₀ a = (net', h₁, .ok ()))
    {tables : List (Str × Table Str S ℝ)} (hc : cpds net' = .ok tables) {v : Str} {t : Table Str S ℝ}
    (ht : (v, t) ∈ tables) {X : ℕ → Ω → Str → S} (hX : TestRows P (statesOf net) (v :: t.parents) X)
    (oracle : DF Str S → List ℕ) (predName : Str → Str) {str : S → Str}
    (hstr : ∀ s ∈ statesOf net v, ∀ s' ∈ statesOf net v, str s = str s' → s = s')
    {order order' : List S} (hord : order.Perm (statesOf net v)) (hord' : order'.Perm (statesOf net v)) (acc : Bool) :
    ∃ g : List S → S,
      (∀ z : Str → S, (∀ u ∈ t.parents, z u ∈ statesOf net u) → MostLikely (statesOf net v) t (t.parents.map z) (g (t.parents.map z))) ∧
      ∀ᵐ ω ∂P, ∀ ε > 0, ∃ n₀ : ℕ, ∀ n ≥ n₀, ∀ (h : Heap Str S) (ref : ℕ) (df : DF Str S), h[ref]? = some df →
        RowsAre (v :: t.parents) df (fun i : Fin n => X i ω) →
        ∃ (h' : Heap Str S) (report : List (Str × Entry ℝ)) (e : S → Scores ℝ) (x : ℝ) (weightedAvg : Scores ℝ),
          classificationReport oracle int predName str order order' acc net' h ref v = (h', .ok report) ∧
          (∀ s ∈ statesOf net v, Dict.get? report (fmtName str v s) = some (.scores (e s)) ∧
            |((e s).support : ℝ) / n - P.real {ω | X 0 ω v = s}| ≤ ε ∧
            (0 < P.real {ω | g (t.parents.map (X 0 ω)) = s} → |(e s).precision -
              P.real {ω | X 0 ω v = s ∧ g (t.parents.map (X 0 ω)) = s} / P.real {ω | g (t.parents.map (X 0 ω)) = s}| ≤ ε) ∧
            (0 < P.real {ω | X 0 ω v = s} → |(e s).recall -
              P.real {ω | X 0 ω v = s ∧ g (t.parents.map (X 0 ω)) = s} / P.real {ω | X 0 ω v = s}| ≤ ε) ∧
            (0 < P.real {ω | g (t.parents.map (X 0 ω)) = s} + P.real {ω | X 0 ω v = s} → |(e s).f1 -
              2 * P.real {ω | X 0 ω v = s ∧ g (t.parents.map (X 0 ω)) = s} /
                (P.real {ω | g (t.parents.map (X 0 ω)) = s} + P.real {ω | X 0 ω v = s})| ≤ ε)) ∧
          (Dict.get? report "accuracy".toList = some (.number x) ∨ Dict.get? report "micro avg".toList = some (.scores ⟨x, x, x, n⟩)) ∧
          (acc = true → (∀ s ∈ statesOf net v, 0 < P.real {ω | X 0 ω v = s}) → Dict.get? report "accuracy".toList = some (.number x)) ∧
          Dict.get? report "weighted avg".toList = some (.scores weightedAvg) ∧ weightedAvg.recall = x ∧
          |x - P.real {ω | g (t.parents.map (X 0 ω)) = X 0 ω v}| ≤ ε := by
  classical
  have hvn : statesOf net v ≠ [] := by
    intro h0
    have hv : v ∈ net.nodes := by
      have hw := hr.wf hE
      obtain ⟨states, df₀, ps₀, hst, hdf₀, -, -, hnet⟩ := fitCpds_ok hw hf
      obtain ⟨hn, he, hso, tables', hc', hkeys, -⟩ := fit_cpds_correct hint hE hr hne hdf₀ hf
      rw [hc] at hc'
      cases hc'
      exact hkeys ▸ List.mem_map_of_mem ht
    exact hne v hv h0
  obtain ⟨g, hg⟩ := rule_exists (statesOf net v) t hvn
  refine ⟨g, ?_, ?_⟩
  · intro z hz
    obtain ⟨-, out, -, -, -, h2⟩ := predict_argmax hint hE hr hne hf hc ht (h := [⟨t.parents, [fun u => some (z u)]⟩]) (ref := 0)
      (df := ⟨t.parents, [fun u => some (z u)]⟩) rfl (fun u hu => hu) (by
        intro r hr u hu
        rw [List.mem_singleton.1 hr]
        exact ⟨z u, hz u hu, rfl⟩) (fun _ => []) id
    obtain ⟨r', -, ⟨s, hs, ps, x, hps, -, hx, hmax⟩, -⟩ := List.forall₂_cons_left_iff.1 h2
    have : ps = t.parents.map z := by
      apply List.map_injective_iff.2 (Option.some_injective S)
      rw [← hps, List.map_map]
      rfl
    subst this
    have hb : MostLikely (statesOf net v) t (t.parents.map z) s := ⟨hs, x, hx, hmax⟩
    rw [hg _ _ hb]
    exact hb
  -- frequencies
  let T : S → ℝ := fun s => P.real {ω | X 0 ω v = s}
  let G : S → ℝ := fun s => P.real {ω | g (t.parents.map (X 0 ω)) = s}
  let B : S → ℝ := fun s => P.real {ω | X 0 ω v = s ∧ g (t.parents.map (X 0 ω)) = s}
  let A : ℝ := P.real {ω | g (t.parents.map (X 0 ω)) = X 0 ω v}
  let cT : Ω → ℕ → S → ℕ := fun ω n s => (Finset.univ.filter fun i : Fin n => X i ω v = s).card
  let cG : Ω → ℕ → S → ℕ := fun ω n s => (Finset.univ.filter fun i : Fin n => g (t.parents.map (X i ω)) = s).card
  let cB : Ω → ℕ → S → ℕ := fun ω n s => (Finset.univ.filter fun i : Fin n => X i ω v = s ∧ g (t.parents.map (X i ω)) = s).card
  let cA : Ω → ℕ → ℕ := fun ω n => (Finset.univ.filter fun i : Fin n => g (t.parents.map (X i ω)) = X i ω v).card
  have fT : ∀ᵐ ω ∂P, ∀ s ∈ (statesOf net v).toFinset, Tendsto (fun n : ℕ => (cT ω n s : ℝ) / n) atTop (𝓝 (T s)) := by
    rw [Filter.eventually_all_finset]
    intro s _
    have := hX.frequency fun y => rowOf y v = s
    simp only [rowOf_self] at this
    exact this
  have fG : ∀ᵐ ω ∂P, ∀ s ∈ (statesOf net v).toFinset, Tendsto (fun n : ℕ => (cG ω n s : ℝ) / n) atTop (𝓝 (G s)) := by
    rw [Filter.eventually_all_finset]
    intro s _
    have := hX.frequency fun y => g (t.parents.map (rowOf y)) = s
    simp only [rowOf_map] at this
    exact this
  have fB : ∀ᵐ ω ∂P, ∀ s ∈ (statesOf net v).toFinset, Tendsto (fun n : ℕ => (cB ω n s : ℝ) / n) atTop (𝓝 (B s)) := by
    rw [Filter.eventually_all_finset]
    intro s _
    have := hX.frequency fun y => rowOf y v = s ∧ g (t.parents.map (rowOf y)) = s
    simp only [rowOf_map, rowOf_self] at this
    exact this
  have fA : ∀ᵐ ω ∂P, Tendsto (fun n : ℕ => (cA ω n : ℝ) / n) atTop (𝓝 A) := by
    have := hX.frequency fun y => g (t.parents.map (rowOf y)) = rowOf y v
    simp only [rowOf_map, rowOf_self] at this
    exact this
  filter_upwards [fT, fG, fB, fA, ae_all_iff.2 hX.states] with ω hT hG hB hA hst ε hε
  have close : ∀ {f : ℕ → ℝ} {l : ℝ}, Tendsto f atTop (𝓝 l) → ∀ᶠ n in atTop, |f n - l| ≤ ε := fun hf =>
    hf.eventually (Metric.closedBall_mem_nhds _ hε)
  have ev : ∀ᶠ n : ℕ in atTop, 0 < n ∧ |(cA ω n : ℝ) / n - A| ≤ ε ∧ ∀ s ∈ (statesOf net v).toFinset,
      |(cT ω n s : ℝ) / n - T s| ≤ ε ∧ (0 < T s → 0 < cT ω n s) ∧
      (0 < G s → |(fraction (cB ω n s) (cG ω n s) : ℝ) - B s / G s| ≤ ε) ∧
      (0 < T s → |(fraction (cB ω n s) (cT ω n s) : ℝ) - B s / T s| ≤ ε) ∧
      (0 < G s + T s → |2 * (cB ω n s : ℝ) / (cG ω n s + cT ω n s) - 2 * B s / (G s + T s)| ≤ ε) := by
    refine (eventually_gt_atTop 0).and ((close hA).and ?_)
    rw [Filter.eventually_all_finset]
    intro s hs
    refine (close (hT s hs)).and (.and ?_ (.and ?_ (.and ?_ ?_)))
    · by_cases h0 : 0 < T s
      · filter_upwards [(hT s hs).eventually (lt_mem_nhds h0)] with n hn _
        by_contra hcon
        rw [Nat.eq_zero_of_not_pos hcon] at hn
        simp at hn
      · exact Eventually.of_forall fun _ h => absurd h h0
    · by_cases h0 : 0 < G s
      · filter_upwards [close ((hB s hs).div (hG s hs) h0.ne'), eventually_gt_atTop 0] with n hn hpos _
        rw [fraction_eq _ _ hpos]
        exact hn
      · exact Eventually.of_forall fun _ h => absurd h h0
    · by_cases h0 : 0 < T s
      · filter_upwards [close ((hB s hs).div (hT s hs) h0.ne'), eventually_gt_atTop 0] with n hn hpos _
        rw [fraction_eq _ _ hpos]
        exact hn
      · exact Eventually.of_forall fun _ h => absurd h h0
    · by_cases h0 : 0 < G s + T s
      · filter_upwards [close (((hB s hs).const_mul 2).div ((hG s hs).add (hT s hs)) h0.ne'), eventually_gt_atTop 0] with n hn hpos _
        have hn0 : (n : ℝ) ≠ 0 := by positivity
        have e : 2 * (cB ω n s : ℝ) / (cG ω n s + cT ω n s) = 2 * ((cB ω n s : ℝ) / n) / ((cG ω n s : ℝ) / n + (cT ω n s : ℝ) / n) := by
          rw [← add_div, ← mul_div_assoc, div_div_div_cancel_right₀ hn0]
        rw [e]
        exact hn
      · exact Eventually.of_forall fun _ h => absurd h h0
  obtain ⟨n₀, hn₀⟩ := eventually_atTop.1 ev
  refine ⟨n₀, fun n hn h ref df hdf hrows => ?_⟩
  obtain ⟨hpos, hA', hS⟩ := hn₀ n hn
  obtain ⟨hcols, rows, hrw, hval⟩ := hrows
  have hk : ∀ r ∈ df.rows, ∀ p ∈ v :: t.parents, ∃ s ∈ statesOf net p, r p = some s := by
    intro r hr p hp
    rw [hrw, List.mem_ofFn] at hr
    obtain ⟨i, rfl⟩ := hr
    exact ⟨X i ω p, hst i p hp, hval i p hp⟩
  have hlen : df.rows.length = n := by rw [hrw, List.length_ofFn]
  have hnil : df.rows ≠ [] := by
    intro h0
    rw [h0] at hlen
    exact hpos.ne hlen
  have hpred : ∀ pred : List S, List.Forall₂ (fun r s => s ∈ statesOf net v ∧ ∃ ps x, t.parents.map r = ps.map some ∧
        t.entry s ps = some x ∧ ∀ s' ∈ statesOf net v, ∃ y, t.entry s' ps = some y ∧ y ≤ x ∧ (s' < s → y < x))
        df.rows pred → pred = List.ofFn fun i : Fin n => g (t.parents.map (X i ω)) := by
    intro pred hp
    have hl : pred.length = n := by rw [← hp.length_eq, hlen]
    apply List.ext_getElem (by simp [hl])
    intro i h1 h2
    have hi : i < n := hl ▸ h1
    obtain ⟨hs, ps, x, hps, hx, hmax⟩ := (List.forall₂_iff_get.1 hp).2 i (hlen ▸ hi) h1
    simp only [List.get_eq_getElem] at hs hps hx hmax
    have hps' : ps = t.parents.map (X i ω) := by
      apply List.map_injective_iff.2 (Option.some_injective S)
      rw [← hps, List.map_map]
      simp only [hrw, List.getElem_ofFn]
      exact List.map_congr_left fun u hu => hval ⟨i, hi⟩ u (List.mem_cons_of_mem _ hu)
    subst hps'
    rw [List.getElem_ofFn]
    exact (hg _ _ ⟨hs, x, hx, hmax⟩).symm
  obtain ⟨h', pred, report, -, hp, hrep, hent⟩ := classificationReport_correct hint hE hr hne hf hc ht hdf hcols hk oracle predName hstr hord hord' acc
  obtain ⟨h'', pred', report', e, x, macroAvg, weightedAvg, -, hp', hrep', hget, hx, hacc, -, -, -, -, -, hwa, -, -, -, -, hwr⟩ :=
    classificationReport_averages hint hE hr hne hf hc ht hdf hcols hk hnil oracle predName hstr hord hord' acc
  rw [hrep] at hrep'
  cases hrep'
  have e1 := hpred pred hp
  have e2 := hpred pred' hp'
  have kT : ∀ s, df.rows.countP (fun r => decide (r v = some s)) = cT ω n s := by
    intro s
    rw [hrw, countP_ofFn]
    exact congrArg Finset.card (Finset.filter_congr fun i _ => by rw [hval i v List.mem_cons_self, Option.some_inj])
  have kG : ∀ s, pred.countP (fun x => decide (x = s)) = cG ω n s := by
    intro s
    rw [e1, countP_ofFn (fun i : Fin n => g (t.parents.map (X i ω))) (fun x => x = s)]
  have kB : ∀ s, (df.rows.zip pred).countP (fun q => decide (q.1 v = some s ∧ q.2 = s)) = cB ω n s := by
    intro s
    rw [hrw, e1, countP_zip_ofFn _ _ (fun q : (Str → Option S) × S => q.1 v = some s ∧ q.2 = s)]
    exact congrArg Finset.card (Finset.filter_congr fun i _ => by dsimp only; rw [hval i v List.mem_cons_self, Option.some_inj])
  have kA : (df.rows.zip pred').countP (fun q => decide (q.1 v = some q.2)) = cA ω n := by
    rw [hrw, e2, countP_zip_ofFn _ _ (fun q : (Str → Option S) × S => q.1 v = some q.2)]
    exact congrArg Finset.card (Finset.filter_congr fun i _ => by dsimp only; rw [hval i v List.mem_cons_self, Option.some_inj, eq_comm])
  refine ⟨h', report, e, x, weightedAvg, hrep, ?_, ?_, ?_, hwa, hwr, ?_⟩
  · intro s hs
    obtain ⟨c1, -, c2, c3, c4⟩ := hS s (List.mem_toFinset.2 hs)
    obtain ⟨e', he', k1, k2, k3, k4⟩ := hent s hs
    rw [hget s hs] at he'
    cases he'
    rw [kB, kG] at k2
    rw [kB, kT] at k3
    rw [kT] at k1
    refine ⟨hget s hs, ?_, ?_, ?_, ?_⟩
    · rw [k1]; exact c1
    · rw [k2]; exact c2
    · rw [k3]; exact c3
    · rw [k4, k2, k3, f1_eq _ _ _ (Finset.card_le_card fun i hi => ?_) (Finset.card_le_card fun i hi => ?_)]
      · exact c4
      · simp only [Finset.mem_filter] at hi ⊢
        exact ⟨hi.1, hi.2.2⟩
      · simp only [Finset.mem_filter] at hi ⊢
        exact ⟨hi.1, hi.2.1⟩
  · rw [hlen] at hacc
    split_ifs at hacc with h0
    · exact .inl hacc.1
    · exact .inr hacc.2
  · intro ha hp0
    rw [if_pos] at hacc
    · exact hacc.1
    · refine ⟨ha, fun s hs => .inl ?_⟩
      have h1 := (hS s (List.mem_toFinset.2 hs)).2.1 (hp0 s hs)
      rw [← kT s, List.countP_pos_iff] at h1
      simpa using h1
  · rw [hx, kA, hlen]
    exact hA'

/-- Specification: the probability that the true state of a random row is given a higher probability than a random wrong state of another random row,
where a tie counts half.  `q x s` is the probability given to the state `s` in the row `x`. -/
noncomputable def trueArea (P : Measure Ω) (X : ℕ → Ω → Str → S) (v : Str) (states : List S) (q : (Str → S) → S → ℝ) : ℝ :=
  ∫ ω, ((states.filter fun s => X 1 ω v ≠ s).map fun s => wins (q (X 0 ω) (X 0 ω v)) (q (X 1 ω) s)).sum / ((states.length : ℝ) - 1) ∂P

theorem scoresOf_ofFn {n : ℕ} {v : Str} {states : List S} (rows : Fin n → Str → Option S) (x : Fin n → S) (hx : ∀ i, rows i v = some (x i))
    (f : Fin n → S → ℝ) (b : Bool) : scoresOf v states (List.ofFn rows) (List.ofFn fun i => states.map (f i)) b =
      (List.ofFn fun i => (states.filter fun s => decide (decide (x i = s) = b)).map (f i)).flatten := by
  have h1 : (List.ofFn rows).zip (List.ofFn fun i => states.map (f i)) = List.ofFn fun i => (rows i, states.map (f i)) := by
    apply List.ext_getElem <;> simp
  have h2 : ∀ (l : List S) (k : S → ℝ) (p : S → Bool), ((l.zip (l.map k)).filter fun e => p e.1).map Prod.snd = (l.filter p).map k := by
    intro l k p
    induction l with
    | nil => rfl
    | cons s l ih =>
      rw [List.map_cons, List.zip_cons_cons, List.filter_cons, List.filter_cons]
      split_ifs
      · rw [List.map_cons, List.map_cons, ih]
      · exact ih
  rw [scoresOf, h1, List.flatMap, List.map_ofFn]
  congr 2
  funext i
  have h3 := h2 states (f i) fun s => decide (decide (rows i v = some s) = b)
  simp only [Function.comp]
  rw [h3]
  simp only [hx i, Option.some_inj]

theorem rank_ofFn {n : ℕ} (hn : 0 < n) {v : Str} {states : List S} (hnd : states.Nodup) (h2 : 2 ≤ states.length) (rows : Fin n → Str → Option S) (x : Fin n → S)
    (hx : ∀ i, rows i v = some (x i)) (hm : ∀ i, x i ∈ states) (f : Fin n → S → ℝ) :
    rankProbability (scoresOf v states (List.ofFn rows) (List.ofFn fun i => states.map (f i)) true)
      (scoresOf v states (List.ofFn rows) (List.ofFn fun i => states.map (f i)) false) =
    (∑ i : Fin n, ∑ j : Fin n, ((states.filter fun s => x j ≠ s).map fun s => wins (f i (x i)) (f j s)).sum / ((states.length : ℝ) - 1)) / ((n : ℝ) * n) := by
  have hone : ∀ i, states.filter (fun s => decide (x i = s)) = [x i] := by
    intro i
    have := hm i
    clear hm h2
    induction states with
    | nil => simp at this
    | cons s l ih =>
      rw [List.nodup_cons] at hnd
      rw [List.filter_cons]
      rcases List.mem_cons.1 this with e | hl
      · rw [if_pos (by simpa using e), e]
        congr 1
        rw [List.filter_eq_nil_iff]
        intro a ha hcon
        simp only [decide_eq_true_eq] at hcon
        exact hnd.1 (hcon ▸ ha)
      · rw [if_neg, ih hnd.2 hl]
        simp only [decide_eq_true_eq]
        intro e
        exact hnd.1 (e ▸ hl)
  have hpos : scoresOf v states (List.ofFn rows) (List.ofFn fun i => states.map (f i)) true = List.ofFn fun i => f i (x i) := by
    rw [scoresOf_ofFn rows x hx]
    have : (fun i => (states.filter fun s => decide (decide (x i = s) = true)).map (f i)) = fun i => [f i (x i)] := by
      funext i
      simp only [decide_eq_true_eq]
      rw [hone i]
      rfl
    rw [this]
    have h3 : ∀ l : List ℝ, (l.map fun a => [a]).flatten = l := fun l => by
      induction l with
      | nil => rfl
      | cons a l ih => simp [ih]
    rw [← h3 (List.ofFn fun i => f i (x i)), List.map_ofFn]
    rfl
  have hneg : scoresOf v states (List.ofFn rows) (List.ofFn fun i => states.map (f i)) false = (List.ofFn fun i => (states.filter fun s => x i ≠ s).map (f i)).flatten := by
    rw [scoresOf_ofFn rows x hx]
    simp only [decide_eq_false_iff_not, ne_eq]
  have hlen : ∀ j, ((states.filter fun s => x j ≠ s).length : ℝ) = (states.length : ℝ) - 1 := by
    intro j
    have h3 := List.length_eq_length_filter_add (l := states) (fun s => decide (x j = s))
    rw [hone j] at h3
    rw [h3]
    simp
  have hnl : (((List.ofFn fun i => (states.filter fun s => x i ≠ s).map (f i)).flatten).length : ℝ) = n * ((states.length : ℝ) - 1) := by
    rw [List.length_flatten, List.map_ofFn, List.sum_ofFn]
    push_cast
    simp only [Function.comp, List.length_map, hlen]
    rw [Finset.sum_const, Finset.card_univ, Fintype.card_fin, nsmul_eq_mul]
  have hk : (states.length : ℝ) - 1 ≠ 0 := by
    have : (2 : ℝ) ≤ states.length := by exact_mod_cast h2
    linarith
  rw [hpos, hneg, rankProbability, hnl, List.length_ofFn, List.map_ofFn, List.sum_ofFn]
  have h4 : ∀ i : Fin n, (((List.ofFn fun i => (states.filter fun s => x i ≠ s).map (f i)).flatten).map fun m => wins (f i (x i)) m).sum =
      ∑ j : Fin n, ((states.filter fun s => x j ≠ s).map fun s => wins (f i (x i)) (f j s)).sum := by
    intro i
    rw [List.map_flatten, List.sum_flatten, List.map_ofFn, List.map_ofFn, List.sum_ofFn]
    refine Finset.sum_congr rfl fun j _ => ?_
    simp only [Function.comp, List.map_map]
    rfl
  simp only [Function.comp, h4, ← Finset.sum_div]
  have hn0 : (n : ℝ) ≠ 0 := by positivity
  field_simp

/-- **C141** for the area under the curve, in the case in which `roc_auc` aligns its columns (see C33): on more and more independent test rows the reported area
converges to the probability that the true state of a random row is given a higher probability than a random wrong state of another row. -/
theorem auc_converges {int : ℕ → S} (hint : Function.Injective int) {ns : List Str}
    {E : List (Str × Str)} (hE : IsStructure ns E) {net net' : Net Str S ℝ} (hr : Reach int ns E net)
    (hne : ∀ v ∈ net.nodes, statesOf net v ≠ []) {h₀ h₁ : Heap Str S} {ref₀ : ℕ} {a : FitArgs ℝ}
    (hf : fitCpds int net h₀ ref₀ a = (net', h₁, .ok ()))
    {tables : List (Str × Table Str S ℝ)} (hc : cpds net' = .ok tables) {v : Str} {t : Table Str S ℝ}
    (ht : (v, t) ∈ tables) {X : ℕ → Ω → Str → S} (hX : TestRows P (statesOf net) (v :: t.parents) X)
    (oracle : DF Str S → DF Str S) (pattern : Str → Except Err (Str → Bool)) {num : ℝ → S} {toNum : S → Option ℝ}
    (hnum : ∀ x, toNum (num x) = some x) (str : S → Str)
    {order order' : List S} (hord : order.Perm (statesOf net v)) (hord' : order'.Perm (statesOf net v))
    (hcoll : ∀ s ∈ statesOf net v, fmtName str v s ∉ t.parents)
    (hlab : (statesOf net v).Pairwise fun s s' => label str v s < label str v s') (htwo : 2 ≤ (statesOf net v).length) :
    ∃ q : (Str → S) → S → ℝ,
      (∀ z : Str → S, (∀ u ∈ t.parents, z u ∈ statesOf net u) → ∀ s ∈ statesOf net v, t.entry s (t.parents.map z) = some (q z s)) ∧
      ∀ᵐ ω ∂P, ∀ ε > 0, ∃ n₀ : ℕ, ∀ n ≥ n₀, ∀ (h : Heap Str S) (ref : ℕ) (df : DF Str S), h[ref]? = some df →
        RowsAre (v :: t.parents) df (fun i : Fin n => X i ω) →
        ∃ (h' : Heap Str S) (pts : List (Option ℝ × Option ℝ)) (area : ℝ),
          rocAuc oracle pattern int num toNum str order order' net' h ref v = (h', .ok (pts, some area)) ∧
          |area - trueArea P X v (statesOf net v) q| ≤ ε := by
  classical
  obtain ⟨hsorted, -⟩ := fitted_states hint hE hr hne hf hc ht
  have hnd : (statesOf net v).Nodup := hsorted.imp ne_of_lt
  let q : (Str → S) → S → ℝ := fun z s => (t.entry s (t.parents.map z)).getD 0
  refine ⟨q, ?_, ?_⟩
  · intro z hz s hs
    obtain ⟨-, out, -, -, -, h2⟩ := predict_argmax hint hE hr hne hf hc ht (h := [⟨t.parents, [fun u => some (z u)]⟩]) (ref := 0)
      (df := ⟨t.parents, [fun u => some (z u)]⟩) rfl (fun u hu => hu) (by
        intro r hr u hu
        rw [List.mem_singleton.1 hr]
        exact ⟨z u, hz u hu, rfl⟩) (fun _ => []) id
    obtain ⟨r', -, ⟨s', hs', ps, x, hps, -, hx, hmax⟩, -⟩ := List.forall₂_cons_left_iff.1 h2
    have : ps = t.parents.map z := by
      apply List.map_injective_iff.2 (Option.some_injective S)
      rw [← hps, List.map_map]
      rfl
    subst this
    obtain ⟨y, hy, -⟩ := hmax s hs
    change _ = some ((t.entry s (t.parents.map z)).getD 0)
    rw [hy]
    rfl
  have hqc : ∀ x s, q (rowOf (valuesOf (v :: t.parents) x)) s = q x s := by
    intro x s
    change (t.entry s (t.parents.map _)).getD 0 = _
    rw [rowOf_map]
  have hp := hX.pairs fun y y' => (((statesOf net v).filter fun s => rowOf y' v ≠ s).map fun s => wins (q (rowOf y) (rowOf y v)) (q (rowOf y') s)).sum /
    (((statesOf net v).length : ℝ) - 1)
  simp only [rowOf_self, hqc] at hp
  filter_upwards [hp, ae_all_iff.2 hX.states] with ω hω hst ε hε
  have ev := (hω.eventually (Metric.closedBall_mem_nhds _ hε)).and (eventually_gt_atTop 0)
  obtain ⟨n₀, hn₀⟩ := eventually_atTop.1 ev
  refine ⟨n₀, fun n hn h ref df hdf hrows => ?_⟩
  obtain ⟨hclose, hpos⟩ := hn₀ n hn
  obtain ⟨hcols, rows, hrw, hval⟩ := hrows
  have hk : ∀ r ∈ df.rows, ∀ p ∈ v :: t.parents, ∃ s ∈ statesOf net p, r p = some s := by
    intro r hr p hp
    rw [hrw, List.mem_ofFn] at hr
    obtain ⟨i, rfl⟩ := hr
    exact ⟨X i ω p, hst i p hp, hval i p hp⟩
  have hlen : df.rows.length = n := by rw [hrw, List.length_ofFn]
  have hnil : df.rows ≠ [] := by
    intro h0
    rw [h0] at hlen
    exact hpos.ne hlen
  obtain ⟨h', Pr, pts, -, hPr, hroc, -⟩ := rocAuc_correct_partial hint hE hr hne hf hc ht hdf hcols hk oracle pattern hnum str hord hord' hcoll hlab hnil htwo
  refine ⟨h', _, _, hroc, ?_⟩
  have hPeq : Pr = List.ofFn fun i : Fin n => (statesOf net v).map (q (X i ω)) := by
    have hl : Pr.length = n := by rw [← hPr.length_eq, hlen]
    apply List.ext_getElem (by simp [hl])
    intro i h1 h2
    have hi : i < n := hl ▸ h1
    obtain ⟨ps, hps, hent⟩ := (List.forall₂_iff_get.1 hPr).2 i (hlen ▸ hi) h1
    simp only [List.get_eq_getElem] at hps hent
    have hps' : ps = t.parents.map (X i ω) := by
      apply List.map_injective_iff.2 (Option.some_injective S)
      rw [← hps, List.map_map]
      simp only [hrw, List.getElem_ofFn]
      exact List.map_congr_left fun u hu => hval ⟨i, hi⟩ u (List.mem_cons_of_mem _ hu)
    subst hps'
    rw [List.getElem_ofFn]
    have h3 : ∀ (l : List S) (l' : List ℝ), List.Forall₂ (fun s x => t.entry s (t.parents.map (X i ω)) = some x) l l' → l' = l.map (q (X i ω)) := by
      intro l l' hh
      induction hh with
      | nil => rfl
      | cons he _ ih =>
        rw [List.map_cons, ← ih]
        congr 1
        change _ = (t.entry _ (t.parents.map _)).getD 0
        rw [he]
        rfl
    exact h3 _ _ hent
  rw [hPeq, hrw, rank_ofFn hpos hnd htwo rows (fun i => X i ω v) (fun i => hval i v List.mem_cons_self) (fun i => hst i v List.mem_cons_self)]
  exact hclose

end

end Verif.Evaluation
