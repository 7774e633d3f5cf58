import Verif.Consistent.Predict
import Verif.Consistent.Causal
import Mathlib.Probability.StrongLaw

/-!
# C140: refitting on a growing data set

One infinite sequence of independent rows; the network is fitted to the first `n` of them, for every `n`.
-/

namespace Verif.Consistent

open Verif.BBN Function MeasureTheory ProbabilityTheory Filter Topology
open Verif.Graph (EdgeRel)
open Verif.Network (FitArgs Net DF Heap IsStructure IsParentList IsConditional GoodArgs statesOf fitCpds cpds framesOf predict)

section
set_option linter.unusedSectionVars false
variable {V S : Type} [LinearOrder V] [LinearOrder S] {Ω : Type} [MeasurableSpace Ω]

/-- The relative frequency of an assignment among the first rows converges to its probability. -/
theorem frequency_tendsto {dom : V → List S} {vs : List V} {par : V → List V} {Q : V → S → List S → ℝ} (h : IsModel dom vs par Q)
    {P : Measure Ω} [IsProbabilityMeasure P] {X : ℕ → Ω → V → S} (hX : RowsFrom P dom vs par Q X) {σ : V → S} (hσ : ∀ v ∈ vs, σ v ∈ dom v) :
    ∀ᵐ ω ∂P, Tendsto (fun n : ℕ => (cell vs (fun i : Fin n => X i ω) σ : ℝ) / n) atTop (𝓝 (truth vs par Q σ)) := by
  classical
  letI : MeasurableSpace ({v // v ∈ vs} → S) := ⊤
  let φ : ({v // v ∈ vs} → S) → ℝ := fun y => if ∀ v : {v // v ∈ vs}, y v = σ v then 1 else 0
  have hφ : Measurable φ := fun _ _ => trivial
  let Y : ℕ → Ω → ℝ := fun i ω => φ fun v => X i ω v
  have hA : ∀ i, MeasurableSet {ω | ∀ v ∈ vs, X i ω v = σ v} := by
    intro i
    have := hX.measurable i (t := {y | ∀ v : {v // v ∈ vs}, y v = σ v}) trivial
    convert this using 1
    ext ω
    exact ⟨fun h v => h v v.2, fun h v hv => h ⟨v, hv⟩⟩
  have hY : ∀ i, Y i = Set.indicator {ω | ∀ v ∈ vs, X i ω v = σ v} 1 := by
    intro i
    funext ω
    by_cases hω : ∀ v ∈ vs, X i ω v = σ v
    · rw [Set.indicator_of_mem (show ω ∈ {ω | ∀ v ∈ vs, X i ω v = σ v} from hω)]
      exact if_pos fun v : {v // v ∈ vs} => hω v v.2
    · rw [Set.indicator_of_notMem (show ω ∉ {ω | ∀ v ∈ vs, X i ω v = σ v} from hω)]
      exact if_neg fun h => hω fun v hv => h ⟨v, hv⟩
  have hYm : ∀ i, Measurable (Y i) := fun i => hφ.comp (hX.measurable i)
  have hint : Integrable (Y 0) P := by
    rw [hY]
    exact (integrable_const (1 : ℝ)).indicator (hA 0)
  have hmean : ∫ ω, Y 0 ω ∂P = truth vs par Q σ := by
    rw [hY, integral_indicator_one (hA 0), measureReal_def, hX.law 0 σ hσ, ENNReal.toReal_ofReal (h.truth_nonneg hσ)]
  have hind : Pairwise ((IndepFun · · P) on Y) := fun i j hij => (hX.indep.indepFun hij).comp hφ hφ
  have hid : ∀ i, IdentDistrib (Y i) (Y 0) P P := by
    intro i
    refine ⟨(hYm i).aemeasurable, (hYm 0).aemeasurable, ?_⟩
    ext B hB
    rw [Measure.map_apply (hYm i) hB, Measure.map_apply (hYm 0) hB, hY, hY]
    have key : ∀ i, P (Set.indicator {ω | ∀ v ∈ vs, X i ω v = σ v} (1 : Ω → ℝ) ⁻¹' B) =
        (if (1 : ℝ) ∈ B then ENNReal.ofReal (truth vs par Q σ) else 0) + (if (0 : ℝ) ∈ B then 1 - ENNReal.ofReal (truth vs par Q σ) else 0) := by
      intro i
      rw [← hX.law i σ hσ, ← prob_compl_eq_one_sub (hA i)]
      have : Set.indicator {ω | ∀ v ∈ vs, X i ω v = σ v} (1 : Ω → ℝ) ⁻¹' B =
          (if (1 : ℝ) ∈ B then {ω | ∀ v ∈ vs, X i ω v = σ v} else ∅) ∪ (if (0 : ℝ) ∈ B then {ω | ∀ v ∈ vs, X i ω v = σ v}ᶜ else ∅) := by
        ext ω
        by_cases hω : ω ∈ {ω | ∀ v ∈ vs, X i ω v = σ v}
        · rw [Set.mem_preimage, Set.indicator_of_mem hω]
          split_ifs <;> simp_all
        · rw [Set.mem_preimage, Set.indicator_of_notMem hω]
          split_ifs <;> simp_all
      rw [this, measure_union]
      · split_ifs <;> simp
      · split_ifs <;> simp [disjoint_compl_right]
      · split_ifs
        exacts [(hA i).compl, MeasurableSet.empty]
    rw [key, key]
  filter_upwards [strong_law_ae_real Y hint hind hid] with ω hω
  rw [hmean] at hω
  refine hω.congr fun n => ?_
  congr 1
  rw [cell, Finset.card_filter, ← Fin.sum_univ_eq_sum_range (fun i => Y i ω)]
  push_cast
  refine Finset.sum_congr rfl fun i _ => ?_
  change (if ∀ v : {v // v ∈ vs}, X i ω v = σ v then (1 : ℝ) else 0) = _
  simp only [Subtype.forall]

/-- Almost surely all rows hold states of the variables, and all frequencies converge. -/
theorem stream_close {dom : V → List S} {vs : List V} {par : V → List V} {Q : V → S → List S → ℝ} (h : IsModel dom vs par Q) (x₀ : V → S)
    {P : Measure Ω} [IsProbabilityMeasure P] {X : ℕ → Ω → V → S} (hX : RowsFrom P dom vs par Q X) :
    ∀ᵐ ω ∂P, (∀ i, ∀ v ∈ vs, X i ω v ∈ dom v) ∧ ∀ δ > 0, ∃ n₀ : ℕ, ∀ n, n₀ ≤ n → ∀ σ ∈ worlds dom vs x₀,
      |(cell vs (fun i : Fin n => X i ω) σ : ℝ) / n - truth vs par Q σ| ≤ δ := by
  classical
  have h1 : ∀ᵐ ω ∂P, ∀ i, ∀ v ∈ vs, X i ω v ∈ dom v := ae_all_iff.2 hX.states
  have h2 : ∀ᵐ ω ∂P, ∀ σ ∈ (worlds dom vs x₀).toFinset,
      Tendsto (fun n : ℕ => (cell vs (fun i : Fin n => X i ω) σ : ℝ) / n) atTop (𝓝 (truth vs par Q σ)) := by
    rw [Filter.eventually_all_finset]
    exact fun σ hσ => frequency_tendsto h hX fun v hv => (worlds_valid (List.mem_toFinset.1 hσ) v).1 hv
  filter_upwards [h1, h2] with ω hω1 hω2
  refine ⟨hω1, fun δ hδ => ?_⟩
  have h3 : ∀ᶠ n : ℕ in atTop, ∀ σ ∈ (worlds dom vs x₀).toFinset, |(cell vs (fun i : Fin n => X i ω) σ : ℝ) / n - truth vs par Q σ| ≤ δ := by
    rw [Filter.eventually_all_finset]
    intro σ hσ
    have := (hω2 σ hσ).eventually (Metric.closedBall_mem_nhds _ hδ)
    filter_upwards [this] with n hn
    rwa [Real.dist_eq] at hn
  obtain ⟨n₀, hn₀⟩ := eventually_atTop.1 h3
  exact ⟨n₀, fun n hn σ hσ => hn₀ n hn σ (List.mem_toFinset.2 hσ)⟩

/-- **C140**, tables and answers: when a network is refitted to a growing data set of independent rows of a distribution with the structure of the
network, then almost surely, whatever the method and the accuracy, from some number of rows on fitting succeeds, every table entry is close to the
conditional probability, and so is every answer of an engine made from the tables to the conditional probability it stands for. -/
theorem tables_converge {int : ℕ → S} (hint : Injective int) {ns : List V} {E : List (V × V)} (hE : IsStructure ns E) (hEne : E ≠ [])
    {net : Net V S ℝ} (hr : Verif.Network.Reach int ns E net) {x₀ : V → S} (hx₀ : ∀ v ∈ net.nodes, x₀ v ∈ statesOf net v)
    {par : V → List V} (hpar : ∀ v ∈ net.nodes, IsParentList E v (par v)) {Q : V → S → List S → ℝ} (hQ : IsConditional net par Q)
    {P : Measure Ω} [IsProbabilityMeasure P] {R : ℕ → Ω → V → S} (hR : RowsFrom P (statesOf net) net.nodes par Q R) :
    ∀ᵐ ω ∂P, ∀ a : FitArgs ℝ, GoodArgs a → (∀ n, a.ess = some n → 0 < n) →
      ∀ ε > 0, ∃ n₀ : ℕ, ∀ n, n₀ ≤ n →
      ∀ (h : Heap V S) (ref : ℕ) (df : DF V S), h[ref]? = some df → RowsAre net.nodes df (fun i : Fin n => R i ω) →
      ∃ net' h' tables, fitCpds int net h ref a = (net', h', .ok ()) ∧ cpds net' = .ok tables ∧ tables.map Prod.fst = net.nodes ∧
        (∀ v t, (v, t) ∈ tables → t.parents = par v ∧ ∀ s ∈ statesOf net v, ∀ z : V → S, (∀ u ∈ net.nodes, z u ∈ statesOf net u) →
          0 < massWith (statesOf net) net.nodes (truth net.nodes par Q) x₀ (fun x => (par v).map x = (par v).map z) →
          ∃ q, t.entry s ((par v).map z) = some q ∧ |q - Q v s ((par v).map z)| ≤ ε) ∧
        ∀ (nd : Nondet V), nd.Legal → ∀ (okName : V → Bool), (∀ v ∈ net.nodes, okName v = true) →
          ∃ e, Engine.create okName (framesOf tables) = .ok e ∧
          ∀ ev : List (V × S), (ev.map Prod.fst).Nodup → (∀ q ∈ ev, q.1 ∈ net.nodes ∧ q.2 ∈ statesOf net q.1) →
            0 < massWith (statesOf net) net.nodes (truth net.nodes par Q) x₀ (Agrees ev) →
            ∃ out, e.query nd ev = .ok out ∧ ReportsWithin ε (statesOf net) net.nodes (fun v s =>
              massWith (statesOf net) net.nodes (truth net.nodes par Q) x₀ (fun x => Agrees ev x ∧ x v = s) /
                massWith (statesOf net) net.nodes (truth net.nodes par Q) x₀ (Agrees ev)) out := by
  filter_upwards [stream_close (isModel_of hE hr (states_nodup hE hr) hpar hQ) x₀ hR] with ω hω
  intro a ha hess ε hε
  obtain ⟨δ, hδ, n₁, hclose⟩ := fit_close hint hE hEne hr hx₀ hpar hQ ha hess hε
  obtain ⟨n₂, hn₂⟩ := hω.2 δ hδ
  exact ⟨max n₁ n₂, fun n hn => hclose n (le_of_max_le_left hn) _ (fun i => hω.1 i) (hn₂ n (le_of_max_le_right hn))⟩

/-- **C140**, predictions: almost surely, from some number of rows on all predictions are those of an optimal rule. -/
theorem predictions_become_optimal {int : ℕ → S} (hint : Injective int) {ns : List V} {E : List (V × V)} (hE : IsStructure ns E) (hEne : E ≠ [])
    {net : Net V S ℝ} (hr : Verif.Network.Reach int ns E net) {x₀ : V → S} (hx₀ : ∀ v ∈ net.nodes, x₀ v ∈ statesOf net v)
    {par : V → List V} (hpar : ∀ v ∈ net.nodes, IsParentList E v (par v)) {Q : V → S → List S → ℝ} (hQ : IsConditional net par Q)
    {P : Measure Ω} [IsProbabilityMeasure P] {R : ℕ → Ω → V → S} (hR : RowsFrom P (statesOf net) net.nodes par Q R) :
    ∀ᵐ ω ∂P, ∀ a : FitArgs ℝ, GoodArgs a → (∀ n, a.ess = some n → 0 < n) →
      ∃ n₀ : ℕ, ∀ n, n₀ ≤ n →
      ∀ (h : Heap V S) (ref : ℕ) (train : DF V S), h[ref]? = some train → RowsAre net.nodes train (fun i : Fin n => R i ω) →
      ∃ net' h', fitCpds int net h ref a = (net', h', .ok ()) ∧ ∀ v ∈ net.nodes, ∃ g : List S → S,
        -- the predictions are given by a function of the states of the parents,
        (∀ (h₂ : Heap V S) (ref₂ : ℕ) (df : DF V S), h₂[ref₂]? = some df → (∀ u ∈ par v, u ∈ df.cols) →
          (∀ r ∈ df.rows, ∀ u ∈ par v, ∃ s ∈ statesOf net u, r u = some s) → ∀ (oracle : DF V S → List ℕ) (predName : V → V),
          ∃ h₃ out, predict oracle int predName net' h₂ ref₂ v = (h₃, .ok out) ∧
            List.Forall₂ (fun r r' => ∃ ps, (par v).map r = ps.map some ∧ r' (predName v) = some (g ps)) df.rows out.rows) ∧
        -- this function returns a state that is most probable given the states of the parents,
        (∀ z : V → S, (∀ u ∈ net.nodes, z u ∈ statesOf net u) →
          0 < massWith (statesOf net) net.nodes (truth net.nodes par Q) x₀ (fun x => (par v).map x = (par v).map z) →
          g ((par v).map z) ∈ statesOf net v ∧ ∀ s ∈ statesOf net v,
            massWith (statesOf net) net.nodes (truth net.nodes par Q) x₀ (fun x => x v = s ∧ (par v).map x = (par v).map z) ≤
              massWith (statesOf net) net.nodes (truth net.nodes par Q) x₀
                (fun x => x v = g ((par v).map z) ∧ (par v).map x = (par v).map z)) ∧
        -- and no other rule is right more often.
        ∀ f : (V → S) → S, (∀ x y, (∀ u ∈ net.nodes, ¬ Relation.ReflTransGen (EdgeRel E) v u → x u = y u) → f x = f y) →
          massWith (statesOf net) net.nodes (truth net.nodes par Q) x₀ (fun x => f x = x v) ≤
            massWith (statesOf net) net.nodes (truth net.nodes par Q) x₀ (fun x => g ((par v).map x) = x v) := by
  filter_upwards [stream_close (isModel_of hE hr (states_nodup hE hr) hpar hQ) x₀ hR] with ω hω
  intro a ha hess
  obtain ⟨δ, hδ, n₁, hclose⟩ := predict_close hint hE hEne hr hx₀ hpar hQ ha hess
  obtain ⟨n₂, hn₂⟩ := hω.2 δ hδ
  exact ⟨max n₁ n₂, fun n hn => hclose n (le_of_max_le_left hn) _ (fun i => hω.1 i) (hn₂ n (le_of_max_le_right hn))⟩

/-- **C140**, effects of interventions: almost surely, for all interventions at once, the answers after the intervention converge to the effects. -/
theorem effects_converge {int : ℕ → S} (hint : Injective int) {ns : List V} {E : List (V × V)} (hE : IsStructure ns E)
    {net : Net V S ℝ} (hr : Verif.Network.Reach int ns E net) {x₀ : V → S} (hx₀ : ∀ v ∈ net.nodes, x₀ v ∈ statesOf net v)
    {par : V → List V} (hpar : ∀ v ∈ net.nodes, IsParentList E v (par v)) {Q : V → S → List S → ℝ} (hQ : IsConditional net par Q)
    {P : Measure Ω} [IsProbabilityMeasure P] {R : ℕ → Ω → V → S} (hR : RowsFrom P (statesOf net) net.nodes par Q R) :
    ∀ᵐ ω ∂P, ∀ a : FitArgs ℝ, GoodArgs a → (∀ n, a.ess = some n → 0 < n) →
      ∀ (X : V), (∃ y, (X, y) ∈ E) → ∀ d : Dist S ℝ, d.IsDist (statesOf net X).toFinset →
      Overlap (statesOf net) net.nodes par Q x₀ X d.val → ∀ ε > 0, ∃ n₀ : ℕ, ∀ n, n₀ ≤ n →
      ∀ (h : Heap V S) (ref : ℕ) (df : DF V S), h[ref]? = some df → RowsAre net.nodes df (fun i : Fin n => R i ω) →
      ∀ (nd : Nondet V), nd.Legal → ∀ (okName : V → Bool), (∀ v ∈ net.nodes, okName v = true) →
      ∃ net' h' tables e e', fitCpds int net h ref a = (net', h', .ok ()) ∧ cpds net' = .ok tables ∧
        Engine.create okName (framesOf tables) = .ok e ∧ e.doIntervention X (.dist d) = (e', .ok ()) ∧
        ((∃ out, e'.query nd [] = .ok out) →
          ∀ ev : List (V × S), (ev.map Prod.fst).Nodup → (∀ q ∈ ev, q.1 ∈ net.nodes ∧ q.2 ∈ statesOf net q.1) →
            0 < massWith (statesOf net) net.nodes (truth net.nodes par (intervened Q X d.val)) x₀ (Agrees ev) →
            ∃ out, e'.query nd ev = .ok out ∧ ReportsWithin ε (statesOf net) net.nodes (fun v s =>
              massWith (statesOf net) net.nodes (truth net.nodes par (intervened Q X d.val)) x₀ (fun x => Agrees ev x ∧ x v = s) /
                massWith (statesOf net) net.nodes (truth net.nodes par (intervened Q X d.val)) x₀ (Agrees ev)) out) := by
  filter_upwards [stream_close (isModel_of hE hr (states_nodup hE hr) hpar hQ) x₀ hR] with ω hω
  intro a ha hess X hX d hd hov ε hε
  obtain ⟨δ, hδ, n₁, hclose⟩ := intervention_close hint hE hr hx₀ hpar hQ ha hess hX hd hov hε
  obtain ⟨n₂, hn₂⟩ := hω.2 δ hδ
  exact ⟨max n₁ n₂, fun n hn => hclose n (le_of_max_le_left hn) _ (fun i => hω.1 i) (hn₂ n (le_of_max_le_right hn))⟩

end

end Verif.Consistent
