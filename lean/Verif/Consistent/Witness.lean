import Verif.Consistent.Stream
import Verif.Consistent.Enough
import Verif.Network.Witness
import Mathlib.Probability.ProbabilityMassFunction.Constructions
import Mathlib.Probability.Independence.InfinitePi

/-!
# Concrete cases for C127, C134, C135, C140 and C142
-/

namespace Verif.Consistent

open Verif.BBN Function MeasureTheory ProbabilityTheory
open Verif.Network (FitArgs Net statesOf IsParentList IsConditional Reach setNodeStates init GoodArgs)

section
set_option linter.unusedSectionVars false
variable {V S : Type} [LinearOrder V] [LinearOrder S] {dom : V → List S} {vs : List V} {par : V → List V} {Q : V → S → List S → ℝ}

/-- For every choice of conditional probabilities and every set of indices there are random rows as C127 and C140 assume them. -/
theorem rows_exist (h : IsModel dom vs par Q) {x₀ : V → S} (hx₀ : ∀ v ∈ vs, x₀ v ∈ dom v) (ι : Type) :
    ∃ (Ω : Type) (_ : MeasurableSpace Ω) (P : Measure Ω) (_ : IsProbabilityMeasure P) (X : ι → Ω → V → S), RowsFrom P dom vs par Q X := by
  classical
  let l := worlds dom vs x₀
  have hl : ∀ j : Fin l.length, ∀ v ∈ vs, l[j] v ∈ dom v := fun j v hv => (worlds_valid (List.getElem_mem j.2) v).1 hv
  have hsum : ∀ (f : (V → S) → ℝ), ∑ j : Fin l.length, f l[j] = sumOver dom vs f x₀ := by
    intro f
    rw [sumOver_worlds]
    change _ = (l.map f).sum
    rw [← List.sum_ofFn]
    congr 1
    exact List.ext_getElem (by simp) (by simp)
  have htot := h.total hx₀
  let w : Fin l.length → ENNReal := fun j => ENNReal.ofReal (truth vs par Q l[j])
  have hw0 : ∀ j : Fin l.length, 0 ≤ truth vs par Q l[j] := fun j => h.truth_nonneg (hl j)
  have hw : ∑ j, w j = 1 := by
    rw [← ENNReal.ofReal_sum_of_nonneg fun j _ => hw0 j, hsum, htot, ENNReal.ofReal_one]
  let μ : Measure (Fin l.length) := (PMF.ofFintype w hw).toMeasure
  let P : Measure (ι → Fin l.length) := Measure.infinitePi fun _ => μ
  let X : ι → (ι → Fin l.length) → V → S := fun i ω => l[ω i]
  let _ : MeasurableSpace ({v // v ∈ vs} → S) := ⊤
  refine ⟨ι → Fin l.length, inferInstance, P, inferInstance, X, ⟨fun i => ae_of_all _ fun ω => hl (ω i), fun i => ?_, ?_, fun i σ hσ => ?_⟩⟩
  · have h1 : Measurable fun ω : ι → Fin l.length => ω i := measurable_pi_apply i
    have h2 : Measurable fun (j : Fin l.length) (v : {v // v ∈ vs}) => l[j] v := fun _ _ => trivial
    exact h2.comp h1
  · exact iIndepFun_infinitePi (P := fun _ : ι => μ) (X := fun _ (j : Fin l.length) (v : {v // v ∈ vs}) => l[j] v)
      fun _ _ _ => trivial
  · have h1 : P {ω | ∀ v ∈ vs, X i ω v = σ v} = μ {j | ∀ v ∈ vs, l[j] v = σ v} := by
      have h2 := (measurePreserving_eval_infinitePi (fun _ : ι => μ) i).measure_preimage (s := {j : Fin l.length | ∀ v ∈ vs, l[j] v = σ v})
        (MeasurableSet.nullMeasurableSet trivial)
      exact h2
    rw [h1, PMF.toMeasure_apply_fintype]
    have h3 : ∀ j : Fin l.length, Set.indicator {j : Fin l.length | ∀ v ∈ vs, l[j] v = σ v} (PMF.ofFintype w hw) j =
        ENNReal.ofReal (if ∀ v ∈ vs, l[j] v = σ v then truth vs par Q l[j] else 0) := by
      intro j
      by_cases hj : ∀ v ∈ vs, l[j] v = σ v
      · rw [Set.indicator_of_mem (show j ∈ {j : Fin l.length | ∀ v ∈ vs, l[j] v = σ v} from hj), if_pos hj]
        rfl
      · rw [Set.indicator_of_notMem (show j ∉ {j : Fin l.length | ∀ v ∈ vs, l[j] v = σ v} from hj), if_neg hj, ENNReal.ofReal_zero]
    simp only [h3]
    rw [← ENNReal.ofReal_sum_of_nonneg fun j _ => by split_ifs; exacts [hw0 j, le_rfl]]
    rw [hsum fun x => if ∀ v ∈ vs, x v = σ v then truth vs par Q x else 0, sumOver_single σ vs h.nodup h.states hσ]
    rw [truth_congr h (y := σ) fun v hv => if_pos hv]

end

namespace Witness

open Verif.Network.Witness (ns E int int_injective dict isStructure)

/-- The network `0 → 1` with states 5 and 7 of both nodes. -/
noncomputable def net₁ : Net ℕ ℚ ℝ := (setNodeStates (⟨[0, 1], [(0, 1)], none, []⟩ : Net ℕ ℚ ℝ) dict).1

theorem init_ok : (init ns E : Except Verif.Network.Err (Net ℕ ℚ ℝ)) = .ok ⟨[0, 1], [(0, 1)], none, []⟩ := by
  have h1 : (Graph.weakComponents ns E).length = 1 := by decide
  have h2 : Graph.isDag ns E = true := by decide
  unfold init
  rw [h1, h2]
  rfl

theorem reach₁ : Reach int ns E net₁ := .states (.init init_ok) (dict := dict) (by decide) (by decide +kernel) rfl

theorem nodes₁ : net₁.nodes = [0, 1] := by
  rw [(reach₁.wf isStructure).nodes]
  decide

theorem states₀ : statesOf net₁ 0 = [5, 7] := by decide +kernel
theorem states₁ : statesOf net₁ 1 = [5, 7] := by decide +kernel

/-- The parents of the nodes. -/
def par (v : ℕ) : List ℕ := if v = 1 then [0] else []

/-- Node 0 has state 5 with probability `1/4`; node 1 has state 5 with probability `1/3` if node 0 has state 5, and always otherwise. -/
noncomputable def Q (v : ℕ) (s : ℚ) (ps : List ℚ) : ℝ :=
  if v = 0 then (if s = 5 then 1 / 4 else 3 / 4) else if ps = [5] then (if s = 5 then 1 / 3 else 2 / 3) else if s = 5 then 1 else 0

theorem par_ok : ∀ v ∈ net₁.nodes, IsParentList E v (par v) := by
  rw [nodes₁]
  intro v hv
  simp only [List.mem_cons, List.not_mem_nil, or_false] at hv
  rcases hv with rfl | rfl
  · exact ⟨by decide, fun u => by simp [par, E]⟩
  · exact ⟨by decide, fun u => by simp [par, E]⟩

theorem Q_ok : IsConditional net₁ par Q := by
  have h57 : (7 : ℚ) ≠ 5 := by norm_num
  intro v hv ps _
  rw [nodes₁] at hv
  simp only [List.mem_cons, List.not_mem_nil, or_false] at hv
  rcases hv with rfl | rfl
  · rw [states₀]
    refine ⟨fun s _ => ?_, ?_⟩
    · unfold Q
      split_ifs <;> norm_num
    · simp only [Q, List.map_cons, List.map_nil, List.sum_cons, List.sum_nil, if_true, if_neg h57]
      norm_num
  · rw [states₁]
    refine ⟨fun s _ => ?_, ?_⟩
    · unfold Q
      split_ifs <;> norm_num
    · simp only [Q, List.map_cons, List.map_nil, List.sum_cons, List.sum_nil, if_true, if_neg h57, if_neg one_ne_zero]
      split_ifs <;> norm_num

theorem start_ok : ∀ v ∈ net₁.nodes, (fun _ => (5 : ℚ)) v ∈ statesOf net₁ v := by
  rw [nodes₁]
  intro v hv
  simp only [List.mem_cons, List.not_mem_nil, or_false] at hv
  rcases hv with rfl | rfl
  · rw [states₀]; decide
  · rw [states₁]; decide

/-- C127 applies to this network and each of the three ways to fit it. -/
example := fit_cpds_consistent int_injective isStructure (by decide) reach₁ start_ok par_ok Q_ok (a := {}) (Or.inl rfl) (by simp)
  (ε := 1 / 100) (p := 1 / 100) (by norm_num) (by norm_num)

example := fit_cpds_consistent int_injective isStructure (by decide) reach₁ start_ok par_ok Q_ok
  (a := { method := "BayesianEstimator", prior := some "K2" }) (Or.inr ⟨rfl, Or.inl rfl⟩) (by simp) (ε := 1 / 100) (p := 1 / 100) (by norm_num) (by norm_num)

example := fit_cpds_consistent int_injective isStructure (by decide) reach₁ start_ok par_ok Q_ok
  (a := { method := "BayesianEstimator", prior := some "BDeu", ess := some 10 }) (Or.inr ⟨rfl, Or.inr ⟨rfl, by simp⟩⟩) (by simp) (ε := 1 / 100) (p := 1 / 100) (by norm_num)
  (by norm_num)

/-- C134 applies to this network. -/
example := predict_optimal int_injective isStructure (by decide) reach₁ start_ok par_ok Q_ok (a := {}) (Or.inl rfl) (by simp)
  (p := 1 / 100) (by norm_num)

theorem isModel₁ : IsModel (statesOf net₁) net₁.nodes par Q := isModel_of isStructure reach₁ (fun v => by
  obtain ⟨states, hst⟩ : ∃ states, net₁.states = some states := ⟨_, rfl⟩
  rw [Verif.Network.statesOf_eq hst]
  exact Verif.Network.keysOf_nodup ((reach₁.wf isStructure).encWF hst) v) par_ok Q_ok

/-- C135 applies to the intervention that gives node 0 both states with the same probability. -/
noncomputable def even : Dist ℚ ℝ := ⟨{5, 7}, fun _ => 1 / 2⟩

theorem even_ok : even.IsDist (statesOf net₁ 0).toFinset := by
  refine ⟨by rw [states₀]; rfl, ?_, fun s _ => by simp [even]⟩
  have : (5 : ℚ) ≠ 7 := by norm_num
  simp only [even]
  rw [Finset.sum_pair this]
  norm_num

example := effects_consistent int_injective isStructure reach₁ start_ok par_ok Q_ok (a := {}) (Or.inl rfl) (by simp) (X := 0)
  ⟨1, by decide⟩ even_ok (isModel₁.overlap start_ok (by rw [nodes₁]; decide) even.val (by
    intro ps _ s _
    simp only [Q, if_true]
    by_cases h : s = 5
    · rw [if_pos h]; norm_num
    · rw [if_neg h]; norm_num)) (ε := 1 / 100) (p := 1 / 100) (by norm_num) (by norm_num)

/-- There are random rows from this network. -/
example (n : ℕ) := rows_exist isModel₁ start_ok (Fin n)

/-- There is an infinite sequence of rows from this network, and on it tables, predictions and effects converge as C140 says. -/
example : ∃ (Ω : Type) (_ : MeasurableSpace Ω) (P : Measure Ω) (_ : IsProbabilityMeasure P) (R : ℕ → Ω → ℕ → ℚ),
    RowsFrom P (statesOf net₁) net₁.nodes par Q R ∧ ∀ᵐ ω ∂P, ∀ ε > 0, ∃ n₀ : ℕ, ∀ n, n₀ ≤ n →
      ∃ net' h' tables, Verif.Network.fitCpds int net₁ [⟨[0, 1], List.ofFn fun (i : Fin n) v => some (R i ω v)⟩] 0 {} = (net', h', .ok ()) ∧
        Verif.Network.cpds net' = .ok tables ∧ ∃ t, (1, t) ∈ tables ∧ ∃ q, t.entry 5 [5] = some q ∧ |q - 1 / 3| ≤ ε := by
  obtain ⟨Ω, m, P, hP, R, hR⟩ := rows_exist isModel₁ start_ok ℕ
  refine ⟨Ω, m, P, hP, R, hR, ?_⟩
  filter_upwards [tables_converge int_injective isStructure (by decide) reach₁ start_ok par_ok Q_ok hR] with ω hω ε hε
  obtain ⟨n₀, hn₀⟩ := hω {} (Or.inl rfl) (by simp) ε hε
  refine ⟨n₀, fun n hn => ?_⟩
  obtain ⟨net', h', tables, h1, h2, h3, h4, -⟩ := hn₀ n hn [⟨[0, 1], List.ofFn fun (i : Fin n) v => some (R i ω v)⟩] 0 _ rfl
    ⟨by rw [nodes₁]; exact fun _ h => h, _, rfl, fun _ _ _ => rfl⟩
  refine ⟨net', h', tables, h1, h2, ?_⟩
  have h5 : 1 ∈ tables.map Prod.fst := by rw [h3, nodes₁]; decide
  obtain ⟨⟨v, t⟩, ht, e⟩ := List.mem_map.1 h5
  cases e
  refine ⟨t, ht, ?_⟩
  obtain ⟨-, h6⟩ := h4 1 t ht
  obtain ⟨q, hq, hd⟩ := h6 5 (by rw [states₁]; decide) (fun _ => 5) (fun u hu => start_ok u hu) (by
    have hmem : (fun _ => (5 : ℚ)) ∈ worlds (statesOf net₁) net₁.nodes (fun _ => 5) := mem_worlds_of isModel₁.nodup start_ok fun _ _ => rfl
    refine lt_of_lt_of_le ?_ (List.single_le_sum (l := List.map _ _) ?_ _ (List.mem_map_of_mem (List.mem_filter.2 ⟨hmem, by simp⟩)))
    · rw [truth, nodes₁]
      norm_num [Q, par]
    · intro y hy
      obtain ⟨x, hx, rfl⟩ := List.mem_map.1 hy
      exact isModel₁.truth_nonneg fun v hv => (worlds_valid (List.mem_filter.1 hx).1 v).1 hv)
  exact ⟨q, hq, by simpa [Q, par] using hd⟩

example {Ω : Type} [MeasurableSpace Ω] {P : Measure Ω} [IsProbabilityMeasure P] {R : ℕ → Ω → ℕ → ℚ}
    (hR : RowsFrom P (statesOf net₁) net₁.nodes par Q R) :=
  predictions_become_optimal int_injective isStructure (by decide) reach₁ start_ok par_ok Q_ok hR

example {Ω : Type} [MeasurableSpace Ω] {P : Measure Ω} [IsProbabilityMeasure P] {R : ℕ → Ω → ℕ → ℚ}
    (hR : RowsFrom P (statesOf net₁) net₁.nodes par Q R) :=
  effects_converge int_injective isStructure reach₁ start_ok par_ok Q_ok hR

/-- C142 for this network: its tables have six entries. -/
theorem entries₁ : entries net₁ par = 6 := by
  have hp0 : par 0 = [] := rfl
  have hp1 : par 1 = [0] := rfl
  rw [entries, nodes₁]
  simp only [List.map_cons, List.map_nil, states₀, states₁, hp0, hp1]
  rfl

example {Ω : Type} [MeasurableSpace Ω] {P : Measure Ω} [IsProbabilityMeasure P] {n : ℕ} (hn : 5760000 ≤ n) {R : Fin n → Ω → ℕ → ℚ}
    (hR : RowsFrom P (statesOf net₁) net₁.nodes par Q R) :=
  rows_enough int_injective isStructure (by decide) reach₁ start_ok par_ok Q_ok (a := {}) (Or.inl rfl) (by simp) (ε := 1 / 10) (p := 1 / 100) (π₀ := 1 / 4)
    (by norm_num) (by norm_num) (by norm_num) (by norm_num) (n := n) (by
      have h1 : Real.log (1800 : ℝ) ≤ 1799 := by
        have := Real.log_le_sub_one_of_pos (show (0 : ℝ) < 1800 by norm_num)
        linarith
      have h2 : (5760000 : ℝ) ≤ n := by exact_mod_cast hn
      rw [entries₁]
      norm_num
      rw [div_le_iff₀ (by norm_num)]
      linarith) hR

end Witness

end Verif.Consistent
