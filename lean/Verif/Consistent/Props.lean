import Verif.Consistent.Joint
import Verif.Consistent.Frequency

/-!
# C127: tables fitted to sufficiently many rows are close to the conditional probabilities behind the data
-/

namespace Verif.Consistent

open Verif.BBN Function MeasureTheory ProbabilityTheory
open Verif.Network (FitArgs estimate Net DF Heap IsStructure Reach IsParentList IsConfig IsConditional GoodArgs statesOf observed Known Table fitCpds cpds framesOf)

section
set_option linter.unusedSectionVars false
variable {V S : Type} [LinearOrder V] [LinearOrder S] {Ω : Type} [MeasurableSpace Ω]

/-- Specification: the random rows `X 0, X 1, …` are independent, and each of them is an assignment `σ` of states to the variables
`vs` with the probability that the conditional probabilities `Q` define, the product over all variables of the probability of the
state of the variable given the states of its parents. -/
structure RowsFrom (P : Measure Ω) (dom : V → List S) (vs : List V) (par : V → List V) (Q : V → S → List S → ℝ) {ι : Type}
    (X : ι → Ω → V → S) : Prop where
  states : ∀ i, ∀ᵐ ω ∂P, ∀ v ∈ vs, X i ω v ∈ dom v
  measurable : ∀ i, @Measurable _ _ _ ⊤ (fun ω (v : {v // v ∈ vs}) => X i ω v)
  indep : iIndepFun (m := fun _ => ⊤) (fun i ω (v : {v // v ∈ vs}) => X i ω v) P
  law : ∀ i σ, (∀ v ∈ vs, σ v ∈ dom v) → P {ω | ∀ v ∈ vs, X i ω v = σ v} = ENNReal.ofReal (truth vs par Q σ)

/-- Specification: a data frame whose columns for the variables `vs` hold the given rows.  It may have further columns. -/
def RowsAre (vs : List V) (df : DF V S) {n : ℕ} (R : Fin n → V → S) : Prop :=
  (∀ v ∈ vs, v ∈ df.cols) ∧ ∃ rows : Fin n → V → Option S, df.rows = List.ofFn rows ∧ ∀ i, ∀ v ∈ vs, rows i v = some (R i v)

/-- Specification: the answer lists the variables `vs`, for each its states, with probabilities that differ from `p` by at most `ε`. -/
structure ReportsWithin (ε : ℝ) (dom : V → List S) (vs : List V) (p : V → S → ℝ) (out : List (V × List (S × ℝ))) : Prop where
  vars : out.map Prod.fst = vs
  states : ∀ q ∈ out, (q.2.map Prod.fst).Perm (dom q.1)
  probs : ∀ q ∈ out, ∀ r ∈ q.2, |r.2 - p q.1 r.1| ≤ ε

theorem countP_ofFn {α : Type} {n : ℕ} (f : Fin n → α) (p : α → Prop) [DecidablePred p] :
    (List.ofFn f).countP (fun x => decide (p x)) = (Finset.univ.filter fun i => p (f i)).card := by
  rw [List.ofFn_eq_map, List.countP_map, List.countP_eq_length_filter, ← List.toFinset_card_of_nodup ((List.nodup_finRange n).filter _)]
  congr 1
  ext i
  simp

theorem observed_rows {net : Net V S ℝ} {n : ℕ} {R : Fin n → V → S} (hR : ∀ i, ∀ v ∈ net.nodes, R i v ∈ statesOf net v) {df : DF V S}
    (hdf : RowsAre net.nodes df R) {par : V → List V} {v : V} (hv : v ∈ net.nodes) (hp : ∀ p ∈ par v, p ∈ net.nodes) (s : S) (ps : List S) :
    observed net df v (par v) s ps = famCount par R v ps s := by
  obtain ⟨-, rows, hrows, hval⟩ := hdf
  rw [observed, hrows, countP_ofFn, famCount]
  congr 1
  refine Finset.filter_congr fun i _ => ?_
  have h1 : Known net (rows i) := fun u hu => ⟨R i u, hR i u hu, hval i u hu⟩
  have h2 : (par v).map (rows i) = ps.map some ↔ (par v).map (R i) = ps := by
    rw [← (Option.some_injective S).list_map.eq_iff, List.map_map, List.map_congr_left fun p h => hval i p (hp p h)]
    rfl
  simp only [h1, true_and, hval i v hv, Option.some_inj]
  rw [h2]

/-- The conditional probabilities of a network form a model. -/
theorem isModel_of {int : ℕ → S} {ns : List V} {E : List (V × V)} (hE : IsStructure ns E) {net : Net V S ℝ} (hr : Reach int ns E net)
    (hd : ∀ v, (statesOf net v).Nodup) {par : V → List V} (hpar : ∀ v ∈ net.nodes, IsParentList E v (par v)) {Q : V → S → List S → ℝ} (hQ : IsConditional net par Q) :
    IsModel (statesOf net) net.nodes par Q := by
  have hw := hr.wf hE
  refine ⟨by rw [hw.nodes]; exact Verif.Network.nodesOfEdges_nodup E, fun v _ => hd v, ?_, fun v hv => (hpar v hv).1.imp fun h => ne_of_lt h, ?_,
    fun v hv ps hps s hs => (hQ v hv ps hps).1 s hs, fun v hv ps hps => (hQ v hv ps hps).2⟩
  · intro v hv p hp
    rw [hw.nodes]
    exact Verif.Network.mem_nodesOfEdges.2 ⟨_, ((hpar v hv).2 p).1 hp, Or.inl rfl⟩
  · refine acyclic_mono (fun e he => ?_) hw.acyclic
    obtain ⟨v, hv, h1⟩ := List.mem_flatMap.1 he
    obtain ⟨p, hp, rfl⟩ := List.mem_map.1 h1
    exact ((hpar v hv).2 p).1 hp

/-- Among sufficiently many independent rows, with high probability every assignment has nearly its probability. -/
theorem cells_close {dom : V → List S} {vs : List V} {par : V → List V} {Q : V → S → List S → ℝ} (h : IsModel dom vs par Q) (x₀ : V → S)
    {δ p : ℝ} (hδ : 0 < δ) (hp : 0 < p) : ∃ n₀ : ℕ, 0 < n₀ ∧ ∀ n, n₀ ≤ n → ∀ {Ω : Type} [MeasurableSpace Ω] (P : Measure Ω) [IsProbabilityMeasure P]
      (X : Fin n → Ω → V → S), RowsFrom P dom vs par Q X →
      ∃ G : Set Ω, MeasurableSet G ∧ 1 - ENNReal.ofReal p ≤ P G ∧ ∀ ω ∈ G, ∀ σ ∈ worlds dom vs x₀,
        |(cell vs (fun i => X i ω) σ : ℝ) / n - truth vs par Q σ| ≤ δ := by
  classical
  set W : ℝ := ((worlds dom vs x₀).length : ℝ) with hW
  have hW0 : 0 ≤ W := Nat.cast_nonneg _
  obtain ⟨m, hm⟩ := exists_nat_gt (W / (p * δ ^ 2))
  refine ⟨m + 1, Nat.succ_pos _, fun n hn Ω _ P _ X hX => ?_⟩
  have hn0 : 0 < n := by omega
  have hn0' : (0 : ℝ) < n := by exact_mod_cast hn0
  have hmn : (m : ℝ) ≤ n := by
    have : m ≤ n := by omega
    exact_mod_cast this
  let T : (V → S) → Set Ω := fun σ => {ω | |((Finset.univ.filter fun i : Fin n => ∀ v : {v // v ∈ vs}, X i ω v = σ v).card : ℝ) / n - truth vs par Q σ| < δ}
  have hT : ∀ σ ∈ (worlds dom vs x₀).toFinset, MeasurableSet (T σ) ∧ 1 - ENNReal.ofReal (1 / (n * δ ^ 2)) ≤ P (T σ) := by
    intro σ hσ
    have hv := fun v (hv : v ∈ vs) => (worlds_valid (List.mem_toFinset.1 hσ) v).1 hv
    refine frequency_close hn0 hX.measurable hX.indep (fun y : {v // v ∈ vs} → S => ∀ v, y v = σ v) (h.truth_nonneg hv) (fun i => ?_) hδ
    rw [← hX.law i σ hv]
    congr 1
    ext ω
    exact ⟨fun h v hv => h ⟨v, hv⟩, fun h v => h v v.2⟩
  refine ⟨⋂ σ ∈ (worlds dom vs x₀).toFinset, T σ, Finset.measurableSet_biInter _ fun σ hσ => (hT σ hσ).1, ?_, ?_⟩
  · have hbad : P (⋂ σ ∈ (worlds dom vs x₀).toFinset, T σ)ᶜ ≤ ENNReal.ofReal p := by
      rw [Set.compl_iInter₂]
      refine (measure_biUnion_finset_le _ _).trans ?_
      have h1 : ∀ σ ∈ (worlds dom vs x₀).toFinset, P (T σ)ᶜ ≤ ENNReal.ofReal (1 / (n * δ ^ 2)) := by
        intro σ hσ
        rw [prob_compl_eq_one_sub (hT σ hσ).1]
        exact tsub_le_iff_tsub_le.1 (hT σ hσ).2
      refine (Finset.sum_le_sum h1).trans ?_
      rw [Finset.sum_const, nsmul_eq_mul]
      have h2 : (((worlds dom vs x₀).toFinset.card : ℕ) : ENNReal) ≤ ENNReal.ofReal W := by
        rw [hW, ENNReal.ofReal_natCast]
        exact_mod_cast List.toFinset_card_le _
      refine (mul_le_mul_left h2 _).trans ?_
      rw [← ENNReal.ofReal_mul hW0]
      refine ENNReal.ofReal_le_ofReal ?_
      rw [div_lt_iff₀ (by positivity)] at hm
      rw [mul_one_div, div_le_iff₀ (by positivity)]
      nlinarith [mul_pos hp (sq_pos_of_pos hδ)]
    have hme : MeasurableSet (⋂ σ ∈ (worlds dom vs x₀).toFinset, T σ) := Finset.measurableSet_biInter _ fun σ hσ => (hT σ hσ).1
    rw [prob_compl_eq_one_sub hme] at hbad
    exact tsub_le_iff_tsub_le.1 hbad
  · intro ω hω σ hσ
    have h1 : ω ∈ T σ := Set.mem_iInter₂.1 hω σ (List.mem_toFinset.2 hσ)
    have h2 : cell vs (fun i => X i ω) σ = (Finset.univ.filter fun i : Fin n => ∀ v : {v // v ∈ vs}, X i ω v = σ v).card := by
      rw [cell]
      congr 1
      exact Finset.filter_congr fun i _ => ⟨fun h v => h v v.2, fun h v hv => h ⟨v, hv⟩⟩
    rw [h2]
    exact h1.le

/-- The states of the nodes of a network are distinct. -/
theorem states_nodup {int : ℕ → S} {ns : List V} {E : List (V × V)} (hE : IsStructure ns E) {net : Net V S ℝ} (hr : Reach int ns E net) (v : V) :
    (statesOf net v).Nodup := by
  cases hst : net.states with
  | none => simp [statesOf, hst]
  | some states =>
    rw [Verif.Network.statesOf_eq hst]
    exact Verif.Network.keysOf_nodup ((hr.wf hE).encWF hst) v

/-- Sufficiently many independent rows hold states of the variables and, with high probability, every assignment nearly as often as it should be. -/
theorem rows_close {dom : V → List S} {vs : List V} {par : V → List V} {Q : V → S → List S → ℝ} (h : IsModel dom vs par Q) (x₀ : V → S)
    {δ p : ℝ} (hδ : 0 < δ) (hp : 0 < p) (n₁ : ℕ) : ∃ n₀ : ℕ, n₁ ≤ n₀ ∧ ∀ n, n₀ ≤ n → ∀ {Ω : Type} [MeasurableSpace Ω] (P : Measure Ω)
      [IsProbabilityMeasure P] (X : Fin n → Ω → V → S), RowsFrom P dom vs par Q X →
      ∃ G : Set Ω, MeasurableSet G ∧ 1 - ENNReal.ofReal p ≤ P G ∧ ∀ ω ∈ G, (∀ i, ∀ v ∈ vs, X i ω v ∈ dom v) ∧
        ∀ σ ∈ worlds dom vs x₀, |(cell vs (fun i => X i ω) σ : ℝ) / n - truth vs par Q σ| ≤ δ := by
  obtain ⟨n₂, -, hcells⟩ := cells_close h x₀ hδ hp
  refine ⟨max n₁ n₂, le_max_left _ _, fun n hn Ω _ P _ X hX => ?_⟩
  obtain ⟨G₀, hG₀, hPG₀, hgood⟩ := hcells n (le_of_max_le_right hn) P X hX
  have hae : ∀ᵐ ω ∂P, ∀ i, ∀ v ∈ vs, X i ω v ∈ dom v := ae_all_iff.2 hX.states
  obtain ⟨N, hN1, hN2, hN3⟩ := exists_measurable_superset_of_null (ae_iff.1 hae)
  refine ⟨G₀ \ N, hG₀.diff hN2, by rw [measure_sdiff_null hN3]; exact hPG₀, fun ω hω => ⟨?_, hgood ω hω.1⟩⟩
  by_contra hc
  exact hω.2 (hN1 hc)

/-- Rows in which every assignment has nearly its probability give tables close to the conditional probabilities, and answers close to the
probabilities they define. -/
theorem fit_close {int : ℕ → S} (hint : Injective int) {ns : List V} {E : List (V × V)} (hE : IsStructure ns E) (hEne : E ≠ [])
    {net : Net V S ℝ} (hr : Reach int ns E net) {x₀ : V → S} (hx₀ : ∀ v ∈ net.nodes, x₀ v ∈ statesOf net v)
    {par : V → List V} (hpar : ∀ v ∈ net.nodes, IsParentList E v (par v)) {Q : V → S → List S → ℝ} (hQ : IsConditional net par Q)
    {a : FitArgs ℝ} (ha : GoodArgs a) (hess : ∀ n, a.ess = some n → 0 < n) {ε : ℝ} (hε : 0 < ε) :
    ∃ δ : ℝ, 0 < δ ∧ ∃ n₀ : ℕ, ∀ n, n₀ ≤ n → ∀ R : Fin n → V → S, (∀ i, ∀ v ∈ net.nodes, R i v ∈ statesOf net v) →
      (∀ σ ∈ worlds (statesOf net) net.nodes x₀, |(cell net.nodes R σ : ℝ) / n - truth net.nodes par Q σ| ≤ δ) →
      ∀ (h : Heap V S) (ref : ℕ) (df : DF V S), h[ref]? = some df → RowsAre net.nodes df R →
      ∃ net' h' tables, fitCpds int net h ref a = (net', h', .ok ()) ∧ cpds net' = .ok tables ∧ tables.map Prod.fst = net.nodes ∧
        (∀ v t, (v, t) ∈ tables → t.parents = par v ∧ ∀ s ∈ statesOf net v, ∀ z : V → S, (∀ u ∈ net.nodes, z u ∈ statesOf net u) →
          0 < massWith (statesOf net) net.nodes (truth net.nodes par Q) x₀ (fun x => (par v).map x = (par v).map z) →
          ∃ q, t.entry s ((par v).map z) = some q ∧ |q - Q v s ((par v).map z)| ≤ ε) ∧
        ∀ (nd : Nondet V), nd.Legal → ∀ (okName : V → Bool), (∀ v ∈ net.nodes, okName v = true) →
          ∃ e, Engine.create okName (framesOf tables) = .ok e ∧
          ∀ ev : List (V × S), (ev.map Prod.fst).Nodup → (∀ q ∈ ev, q.1 ∈ net.nodes ∧ q.2 ∈ statesOf net q.1) →
            0 < massWith (statesOf net) net.nodes (truth net.nodes par Q) x₀ (Agrees ev) →
            ∃ out, e.query nd ev = .ok out ∧ ReportsWithin ε (statesOf net) net.nodes (fun v s =>
              massWith (statesOf net) net.nodes (truth net.nodes par Q) x₀ (fun x => Agrees ev x ∧ x v = s) /
                massWith (statesOf net) net.nodes (truth net.nodes par Q) x₀ (Agrees ev)) out := by
  have hw := hr.wf hE
  have hne : ∀ v ∈ net.nodes, statesOf net v ≠ [] := fun v hv => List.ne_nil_of_mem (hx₀ v hv)
  obtain ⟨e₀, he₀⟩ := List.exists_mem_of_ne_nil E hEne
  have hnode : e₀.1 ∈ net.nodes := by
    rw [hw.nodes]
    exact Verif.Network.mem_nodesOfEdges.2 ⟨e₀, he₀, Or.inl rfl⟩
  obtain ⟨states, hst⟩ : ∃ states, net.states = some states := by
    cases hst : net.states with
    | none => exact absurd (by rw [statesOf, hst]) (hne _ hnode)
    | some states => exact ⟨states, rfl⟩
  have hd : ∀ v, (statesOf net v).Nodup := by
    intro v
    rw [Verif.Network.statesOf_eq hst]
    exact Verif.Network.keysOf_nodup (hw.encWF hst) v
  have hM := isModel_of hE hr hd hpar hQ
  have hm : a.method = "MaximumLikelihoodEstimator" ∨ a.prior = some "K2" ∨ a.ess ≠ none := by
    rcases ha with h1 | ⟨-, h1 | ⟨-, h1⟩⟩
    · exact Or.inl h1
    · exact Or.inr (Or.inl h1)
    · exact Or.inr (Or.inr h1)
  obtain ⟨δ, hδ, n₁, -, hclose⟩ := everything_close hM hx₀ hess hm hε
  refine ⟨δ, hδ, n₁, fun n hn R hR hgood h ref df hdf hrows => ?_⟩
  obtain ⟨c1, c2⟩ := hclose n hn R hR hgood
  have hok := (Verif.Network.fit_ok_iff hE hr hdf a).2 ⟨by rw [hst]; simp, hrows.1, ha⟩
  obtain ⟨net', h', res, hf⟩ : ∃ net' h' res, fitCpds int net h ref a = (net', h', res) := ⟨_, _, _, rfl⟩
  rw [hf] at hok
  simp only at hok
  subst hok
  obtain ⟨-, -, -, tables, t1, t2, t3⟩ := Verif.Network.fit_cpds_correct hint hE hr hne hdf hf
  refine ⟨net', h', tables, hf, t1, t2, ?_, ?_⟩
  · intro v t ht
    have hv : v ∈ net.nodes := by rw [← t2]; exact List.mem_map_of_mem ht
    obtain ⟨-, hpl, -, -, hent⟩ := t3 v t ht
    have hpv := Verif.Network.parentList_unique hpl (hpar v hv)
    refine ⟨hpv, fun s hs z hz hpos => ⟨_, hent s hs _ ?_, ?_⟩⟩
    · rw [hpv]
      exact hM.config fun q hq => hz q (hM.parents v hv q hq)
    · rw [hpv]
      simp only [observed_rows hR hrows hv (hM.parents v hv)]
      exact c1 v hv z hz hpos s hs
  · intro nd hnd okName hokn
    obtain ⟨tables', e, t1', he, hq⟩ := Verif.Network.fit_then_query hint hE hEne hr hne hdf hess hf hpar hnd hokn
    rw [t1] at t1'
    cases t1'
    refine ⟨e, he, fun ev hk hev hpos => ?_⟩
    obtain ⟨-, hq⟩ := hq x₀ hx₀
    have hmass : ∀ (A : (V → S) → Prop) [DecidablePred A], Verif.Network.dataMass a net df par x₀ A =
        massWith (statesOf net) net.nodes (estJoint (statesOf net) net.nodes par a R) x₀ A := by
      intro A _
      unfold Verif.Network.dataMass
      congr 1
      funext x
      unfold Verif.Network.dataJoint estJoint
      refine congrArg List.prod (List.map_congr_left fun v hv => ?_)
      simp only [observed_rows hR hrows hv (hM.parents v hv)]
    have h0 := (c2 (Agrees ev) (Agrees ev) (fun _ h => h) hpos).1
    rw [← hmass] at h0
    obtain ⟨out, ho, hrep⟩ := hq ev hk hev h0
    refine ⟨out, ho, hrep.vars, hrep.states, fun q hq r hrq => ?_⟩
    rw [hrep.probs q hq r hrq, hmass, hmass]
    exact (c2 (fun x => Agrees ev x ∧ x q.1 = r.1) (Agrees ev) (fun _ h => h.1) hpos).2

/-- **C127**: the tables that `fit_cpds` computes from independent rows of a distribution with the structure of the network converge to the
conditional probabilities of the distribution, and so do the answers of an inference engine created from them. -/
theorem fit_cpds_consistent {int : ℕ → S} (hint : Injective int) {ns : List V} {E : List (V × V)} (hE : IsStructure ns E) (hEne : E ≠ [])
    {net : Net V S ℝ} (hr : Reach int ns E net) {x₀ : V → S} (hx₀ : ∀ v ∈ net.nodes, x₀ v ∈ statesOf net v)
    {par : V → List V} (hpar : ∀ v ∈ net.nodes, IsParentList E v (par v)) {Q : V → S → List S → ℝ} (hQ : IsConditional net par Q)
    {a : FitArgs ℝ} (ha : GoodArgs a) (hess : ∀ n, a.ess = some n → 0 < n) {ε p : ℝ} (hε : 0 < ε) (hp : 0 < p) :
    ∃ n₀ : ℕ, ∀ n, n₀ ≤ n → ∀ {Ω : Type} [MeasurableSpace Ω] (P : Measure Ω) [IsProbabilityMeasure P] (X : Fin n → Ω → V → S),
      RowsFrom P (statesOf net) net.nodes par Q X →
      ∃ G : Set Ω, MeasurableSet G ∧ 1 - ENNReal.ofReal p ≤ P G ∧
      ∀ ω ∈ G, ∀ (h : Heap V S) (ref : ℕ) (df : DF V S), h[ref]? = some df → RowsAre net.nodes df (fun i => X i ω) →
      ∃ net' h' tables, fitCpds int net h ref a = (net', h', .ok ()) ∧ cpds net' = .ok tables ∧ tables.map Prod.fst = net.nodes ∧
        (∀ v t, (v, t) ∈ tables → t.parents = par v ∧ ∀ s ∈ statesOf net v, ∀ z : V → S, (∀ u ∈ net.nodes, z u ∈ statesOf net u) →
          0 < massWith (statesOf net) net.nodes (truth net.nodes par Q) x₀ (fun x => (par v).map x = (par v).map z) →
          ∃ q, t.entry s ((par v).map z) = some q ∧ |q - Q v s ((par v).map z)| ≤ ε) ∧
        ∀ (nd : Nondet V), nd.Legal → ∀ (okName : V → Bool), (∀ v ∈ net.nodes, okName v = true) →
          ∃ e, Engine.create okName (framesOf tables) = .ok e ∧
          ∀ ev : List (V × S), (ev.map Prod.fst).Nodup → (∀ q ∈ ev, q.1 ∈ net.nodes ∧ q.2 ∈ statesOf net q.1) →
            0 < massWith (statesOf net) net.nodes (truth net.nodes par Q) x₀ (Agrees ev) →
            ∃ out, e.query nd ev = .ok out ∧ ReportsWithin ε (statesOf net) net.nodes (fun v s =>
              massWith (statesOf net) net.nodes (truth net.nodes par Q) x₀ (fun x => Agrees ev x ∧ x v = s) /
                massWith (statesOf net) net.nodes (truth net.nodes par Q) x₀ (Agrees ev)) out := by
  obtain ⟨δ, hδ, n₁, hclose⟩ := fit_close hint hE hEne hr hx₀ hpar hQ ha hess hε
  obtain ⟨n₀, hn₀, hrc⟩ := rows_close (isModel_of hE hr (states_nodup hE hr) hpar hQ) x₀ hδ hp n₁
  refine ⟨n₀, fun n hn Ω _ P _ X hX => ?_⟩
  obtain ⟨G, hG, hPG, hgood⟩ := hrc n hn P X hX
  exact ⟨G, hG, hPG, fun ω hω => hclose n (hn₀.trans hn) _ (hgood ω hω).1 (hgood ω hω).2⟩

end

end Verif.Consistent
