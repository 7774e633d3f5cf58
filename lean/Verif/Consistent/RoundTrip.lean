import Verif.Consistent.Rows
import Verif.BBN.SampleIid

/-!
# C129: fitting a network to samples drawn from a network
-/

namespace Verif.Consistent

open Verif.BBN Function MeasureTheory ProbabilityTheory
open Verif.Network (FitArgs Net DF Heap IsStructure Reach IsParentList IsConfig IsConditional GoodArgs statesOf Table fitCpds cpds framesOf)

section
set_option linter.unusedSectionVars false
variable {V S : Type} [LinearOrder V] [LinearOrder S] {Ω : Type} [MeasurableSpace Ω] {P : Measure Ω} [IsProbabilityMeasure P]

theorem RowsFrom.congr {dom dom' : V → List S} {vs : List V} {par : V → List V} {Q : V → S → List S → ℝ} {n : ℕ} {X : Fin n → Ω → V → S}
    (h : RowsFrom P dom vs par Q X) (hd : ∀ v ∈ vs, dom v = dom' v) : RowsFrom P dom' vs par Q X := by
  refine ⟨fun i => ?_, h.measurable, h.indep, fun i σ hσ => h.law i σ fun v hv => by rw [hd v hv]; exact hσ v hv⟩
  filter_upwards [h.states i] with ω hω v hv
  rw [← hd v hv]
  exact hω v hv

omit [LinearOrder S] in
theorem lookup_complete {s : List (V × S)} {vs : List V} (hvs : vs.Nodup) (hs : (s.map Prod.fst).Perm vs) (x : V → S) :
    Agrees s x ↔ ∀ v ∈ vs, s.lookup v = some (x v) := by
  have hnd : (s.map Prod.fst).Nodup := hs.nodup_iff.2 hvs
  constructor
  · intro h v hv
    obtain ⟨p, hp, rfl⟩ := List.mem_map.1 (hs.mem_iff.2 hv)
    rw [h p hp]
    exact lookup_of_mem_nodup hnd hp
  · intro h p hp
    have h1 := h p.1 (hs.mem_iff.1 (List.mem_map_of_mem hp))
    rw [lookup_of_mem_nodup hnd (show (p.1, p.2) ∈ s from hp)] at h1
    exact (Option.some_inj.1 h1).symm

theorem config_congr {dom dom' : V → List S} {vs : List V} {l : List S} (hd : ∀ v ∈ vs, dom v = dom' v) (h : List.Forall₂ (fun s p => s ∈ dom p) l vs) :
    List.Forall₂ (fun s p => s ∈ dom' p) l vs := by
  induction h with
  | nil => exact .nil
  | cons h1 _ ih => exact .cons (by rw [← hd _ List.mem_cons_self]; exact h1) (ih fun v hv => hd v (List.mem_cons_of_mem _ hv))

variable {pick : ℕ → ℕ → Ω → ℕ} {U : ℕ → ℕ → Ω → ℝ}

/-- The samples of a call of `draw_samples` without evidence are independent rows of the distribution of the network. -/
theorem samples_are_rows {nd : Nondet V} (hnd : nd.Legal) {dom : V → List S} {nodes : List (Node V S ℝ)} (hN : IsNetwork dom nodes) {x₀ : V → S}
    (hx₀ : ∀ v ∈ nodes.map Node.var, x₀ v ∈ dom v) {par : V → List V} {Q : V → S → List S → ℝ} (hM : IsModel dom (nodes.map Node.var) par Q)
    (hj : ∀ x, joint nodes x = truth (nodes.map Node.var) par Q x) (h : RandomSource P pick U) (n : ℕ) :
    ∃ X : Fin n → Ω → V → S, RowsFrom P dom (nodes.map Node.var) par Q X ∧ ∀ ω, (∀ k i, 0 < U k i ω) →
      ∃ ss, drawSamples nd dom nodes [] n (fun k i => ⟨pick k i ω, U k i ω⟩) = .ok ss ∧ ∃ hl : ss.length = n,
        ∀ k : Fin n, ∀ v ∈ nodes.map Node.var, (ss[k]'(by rw [hl]; exact k.2)).lookup v = some (X k ω v) := by
  classical
  set vs := nodes.map Node.var with hvs
  have hone : massOf dom nodes x₀ (Agrees []) = 1 := by
    have e : massOf dom nodes x₀ (Agrees []) = sumOver dom vs (truth vs par Q) x₀ := by
      rw [sumOver_worlds, massOf]
      have h1 : (worlds dom vs x₀).filter (fun x => decide (Agrees (V := V) [] x)) = worlds dom vs x₀ :=
        List.filter_eq_self.2 fun x _ => by simp [Agrees]
      rw [h1]
      exact congrArg List.sum (List.map_congr_left fun x _ => hj x)
    rw [e, hM.total hx₀]
  have hgood : GoodEvidence dom nodes [] := fun p hp => by cases hp
  let rand : Ω → ℕ → ℕ → Draw ℝ := fun ω k i => ⟨pick k i ω, U k i ω⟩
  have hdraw : ∀ ω, ∃ ss, (∀ k i, 0 < U k i ω) → drawSamples nd dom nodes [] n (rand ω) = .ok ss ∧ ss.length = n ∧
      ∀ s ∈ ss, (s.map Prod.fst).Perm vs ∧ ∀ p ∈ s, p.2 ∈ dom p.1 := by
    intro ω
    by_cases hω : ∀ k i, 0 < U k i ω
    · obtain ⟨ss, s1, s2, s3⟩ := draw_samples_correct hnd hN hx₀ (ev := []) (by simp) hgood (by rw [hone]; exact one_pos) n (rand ω)
        fun k i => ⟨hω k i, (h.range k i ω).2.le⟩
      exact ⟨ss, fun _ => ⟨s1, s2, fun s hs => ⟨(s3 s hs).2.1, (s3 s hs).2.2.1⟩⟩⟩
    · exact ⟨[], fun hc => absurd hc hω⟩
  choose ss hss using hdraw
  let X : Fin n → Ω → V → S := fun k ω v => if ∀ k i, 0 < U k i ω then (((ss ω)[(k : ℕ)]?.getD []).lookup v).getD (x₀ v) else x₀ v
  have hX : ∀ ω, (∀ k i, 0 < U k i ω) → ∃ hl : (ss ω).length = n, ∀ k : Fin n, ∀ v ∈ vs, ((ss ω)[k]'(by rw [hl]; exact k.2)).lookup v = some (X k ω v) := by
    intro ω hω
    obtain ⟨-, s2, s3⟩ := hss ω hω
    refine ⟨s2, fun k v hv => ?_⟩
    have hk : (k : ℕ) < (ss ω).length := by rw [s2]; exact k.2
    have h1 := (s3 _ (List.getElem_mem hk)).1
    obtain ⟨p, hp, hpv⟩ := List.mem_map.1 (h1.mem_iff.2 hv)
    have h2 : ((ss ω)[(k : ℕ)]).lookup v = some p.2 := by
      rw [← hpv]
      exact lookup_of_mem_nodup (h1.nodup_iff.2 hM.nodup) hp
    simp only [X, if_pos hω, List.getElem?_eq_getElem hk, Option.getD_some]
    change ((ss ω)[(k : ℕ)]).lookup v = _
    rw [h2, Option.getD_some]
  have hXdom : ∀ ω, ∀ k, ∀ v ∈ vs, X k ω v ∈ dom v := by
    intro ω k v hv
    by_cases hω : ∀ k i, 0 < U k i ω
    · obtain ⟨hl, h1⟩ := hX ω hω
      have h2 := lookup_mem (h1 k v hv)
      have hk : (k : ℕ) < (ss ω).length := by rw [hl]; exact k.2
      exact ((hss ω hω).2.2 _ (List.getElem_mem hk)).2 _ h2
    · simp only [X, if_neg hω]
      exact hx₀ v hv
  -- the event that the samples are given ones
  let ext : (Fin n → V → S) → ℕ → V → S := fun F k => if hk : k < n then F ⟨k, hk⟩ else x₀
  have hev : ∀ F ω, (∀ k i, 0 < U k i ω) → (SamplesAre nd dom nodes [] n (rand ω) (ext F) ↔ ∀ k, ∀ v ∈ vs, X k ω v = F k v) := by
    intro F ω hω
    obtain ⟨s1, s2, s3⟩ := hss ω hω
    obtain ⟨hl, h1⟩ := hX ω hω
    have h2 : ∀ (k : ℕ) (hk : k < n), Agrees ((ss ω)[k]'(by rw [hl]; exact hk)) (ext F k) ↔ ∀ v ∈ vs, X ⟨k, hk⟩ ω v = F ⟨k, hk⟩ v := by
      intro k hk
      rw [lookup_complete hM.nodup (s3 _ (List.getElem_mem _)).1]
      refine forall₂_congr fun v hv => ?_
      have h3 := h1 ⟨k, hk⟩ v hv
      change ((ss ω)[k]).lookup v = _ at h3
      rw [h3, Option.some_inj]
      simp only [ext, dif_pos hk]
    constructor
    · rintro ⟨ss', t1, t2, t3⟩ k
      rw [s1] at t1
      cases t1
      exact (h2 k k.2).1 (t3 k (by rw [hl]; exact k.2))
    · intro hF
      exact ⟨ss ω, s1, s2, fun k hk => (h2 k (by rw [← hl]; exact hk)).2 (hF _)⟩
  have hvalid : ∀ F : Fin n → V → S, (∀ k, ∀ v ∈ vs, F k v ∈ dom v) → ∀ k, (∀ v ∈ vs, ext F k v ∈ dom v) ∧ Agrees [] (ext F k) := by
    intro F hF k
    refine ⟨fun v hv => ?_, fun p hp => by cases hp⟩
    by_cases hk : k < n
    · simp only [ext, dif_pos hk]; exact hF _ v hv
    · simp only [ext, dif_neg hk]; exact hx₀ v hv
  have hevent := fun (F : Fin n → V → S) (hF : ∀ k, ∀ v ∈ vs, F k v ∈ dom v) =>
    samples_event hnd hN hx₀ (ev := []) (by simp) hgood (by rw [hone]; exact one_pos) n (ext F) (hvalid F hF) h
  have hset : ∀ F : Fin n → V → S, {ω | (∀ k i, 0 < U k i ω) ∧ SamplesAre nd dom nodes [] n (fun k i => ⟨pick k i ω, U k i ω⟩) (ext F)} =
      {ω | (∀ k i, 0 < U k i ω) ∧ ∀ k, ∀ v ∈ vs, X k ω v = F k v} := by
    intro F
    ext ω
    exact and_congr_right fun hω => hev F ω hω
  have hnull : P {ω | ∀ k i, 0 < U k i ω}ᶜ = 0 := by
    refine measure_mono_null ?_ h.positive
    intro ω hω
    have hω : ¬ ∀ k i, 0 < U k i ω := hω
    push Not at hω
    obtain ⟨k, i, hz⟩ := hω
    exact ⟨k, i, le_antisymm hz (h.range k i ω).1⟩
  refine ⟨X, rowsFrom_of_joint hM hx₀ ?_ ?_, fun ω hω => ?_⟩
  · intro k A _
    let W : Finset (V → S) := (worlds dom vs x₀).toFinset
    have hW : ∀ f ∈ W, ∀ v ∈ vs, f v ∈ dom v := fun f hf v hv => (worlds_valid (List.mem_toFinset.1 hf) v).1 hv
    let T : Finset (Fin n → V → S) := (Fintype.piFinset fun _ => W).filter fun F => (fun v : {v // v ∈ vs} => F k v) ∈ A
    have e : (fun ω (v : {v // v ∈ vs}) => X k ω v) ⁻¹' A =
        ({ω | ∀ k i, 0 < U k i ω}ᶜ ∩ {_ω | (fun v : {v // v ∈ vs} => x₀ v) ∈ A}) ∪
          ⋃ F ∈ T, {ω | (∀ k i, 0 < U k i ω) ∧ ∀ k, ∀ v ∈ vs, X k ω v = F k v} := by
      ext ω
      rw [Set.mem_union, Set.mem_iUnion₂]
      by_cases hω : ∀ k i, 0 < U k i ω
      · constructor
        · intro hA
          have hmem : ∀ k, ∃ f, f ∈ worlds dom vs x₀ ∧ ∀ v ∈ vs, f v = X k ω v := fun k => Verif.Network.mem_worlds fun v hv => hXdom ω k v hv
          choose F hF1 hF2 using hmem
          refine Or.inr ⟨F, Finset.mem_filter.2 ⟨Fintype.mem_piFinset.2 fun k => List.mem_toFinset.2 (hF1 k), ?_⟩, hω, fun k v hv => (hF2 k v hv).symm⟩
          have : (fun v : {v // v ∈ vs} => F k v) = fun v : {v // v ∈ vs} => X k ω v := funext fun v => hF2 k v v.2
          rw [this]
          exact hA
        · rintro (⟨h1, -⟩ | ⟨F, hF, -, h2⟩)
          · exact absurd hω h1
          · have : (fun v : {v // v ∈ vs} => X k ω v) = fun v : {v // v ∈ vs} => F k v := funext fun v => h2 k v v.2
            change (fun v : {v // v ∈ vs} => X k ω v) ∈ A
            rw [this]
            exact (Finset.mem_filter.1 hF).2
      · have e2 : (fun v : {v // v ∈ vs} => X k ω v) = fun v : {v // v ∈ vs} => x₀ v := funext fun v => by simp only [X, if_neg hω]
        constructor
        · intro hA
          refine Or.inl ⟨hω, ?_⟩
          change (fun v : {v // v ∈ vs} => X k ω v) ∈ A at hA
          rw [e2] at hA
          exact hA
        · rintro (⟨-, h1⟩ | ⟨F, -, h1, -⟩)
          · change (fun v : {v // v ∈ vs} => X k ω v) ∈ A
            rw [e2]
            exact h1
          · exact absurd h1 hω
    rw [e]
    refine ((h.positive_measurable.compl).inter (MeasurableSet.const _)).union (Finset.measurableSet_biUnion _ fun F hF => ?_)
    rw [← hset F]
    exact (hevent F fun k => hW _ (Fintype.mem_piFinset.1 (Finset.mem_filter.1 hF).1 k)).1
  · intro F hF
    have h1 := (hevent F hF).2
    rw [hset F, hone] at h1
    rw [← measure_inter_conull (t := {ω | ∀ k i, 0 < U k i ω}) hnull]
    have e : {ω | ∀ k, ∀ v ∈ vs, X k ω v = F k v} ∩ {ω | ∀ k i, 0 < U k i ω} = {ω | (∀ k i, 0 < U k i ω) ∧ ∀ k, ∀ v ∈ vs, X k ω v = F k v} := by
      ext ω
      exact and_comm
    rw [e, h1, Finset.prod_range]
    refine Finset.prod_congr rfl fun k _ => ?_
    rw [div_one, hj]
    simp only [ext, dif_pos k.2]
  · exact ⟨ss ω, (hss ω hω).1, hX ω hω⟩

/-- Specification: `pandas.DataFrame(samples)`, restricted to the columns `cols`; a missing entry is `NaN`. -/
def frameOf (cols : List V) (ss : List (List (V × S))) : DF V S := ⟨cols, ss.map fun s v => s.lookup v⟩

/-- **C129**: sampling from a fitted network and fitting a network of the same structure and states to the samples gives back nearly the tables of
the first network, and nearly its answers, with high probability if there are sufficiently many samples. -/
theorem sample_then_fit {int : ℕ → S} (hint : Injective int) {ns : List V} {E : List (V × V)} (hE : IsStructure ns E) (hEne : E ≠ [])
    {net net₁ : Net V S ℝ} (hr : Reach int ns E net) {x₀ : V → S} (hx₀ : ∀ v ∈ net.nodes, x₀ v ∈ statesOf net v)
    {heap heap₁ : Heap V S} {ref : ℕ} {a₀ : FitArgs ℝ} (hess₀ : ∀ n, a₀.ess = some n → 0 < n)
    (hf : fitCpds int net heap ref a₀ = (net₁, heap₁, .ok ())) {tables : List (V × Table V S ℝ)} (hc : cpds net₁ = .ok tables)
    {net₂ : Net V S ℝ} (hr₂ : Reach int ns E net₂) (hst : ∀ v ∈ net.nodes, statesOf net₂ v = statesOf net v)
    {a : FitArgs ℝ} (ha : GoodArgs a) (hess : ∀ n, a.ess = some n → 0 < n) {ε p : ℝ} (hε : 0 < ε) (hp : 0 < p) :
    ∃ n₀ : ℕ, ∀ n, n₀ ≤ n → ∀ {Ω : Type} [MeasurableSpace Ω] (P : Measure Ω) [IsProbabilityMeasure P] (pick : ℕ → ℕ → Ω → ℕ) (U : ℕ → ℕ → Ω → ℝ),
      RandomSource P pick U → ∀ nd : Nondet V, nd.Legal →
      ∃ G : Set Ω, MeasurableSet G ∧ 1 - ENNReal.ofReal p ≤ P G ∧ ∀ ω ∈ G,
        ∃ ss, drawSamples nd (domOf (framesOf tables)) (netNodes (cpdsOf (framesOf tables))) [] n (fun k i => ⟨pick k i ω, U k i ω⟩) = .ok ss ∧
        ∀ (h : Heap V S) (ref : ℕ) (cols : List V), (∀ v ∈ net.nodes, v ∈ cols) → h[ref]? = some (frameOf cols ss) →
        ∃ net' h' tables', fitCpds int net₂ h ref a = (net', h', .ok ()) ∧ cpds net' = .ok tables' ∧ tables'.map Prod.fst = tables.map Prod.fst ∧
          (∀ v t t', (v, t) ∈ tables → (v, t') ∈ tables' → t'.parents = t.parents ∧
            ∀ s ∈ statesOf net v, ∀ z : V → S, (∀ u ∈ net.nodes, z u ∈ statesOf net u) →
              0 < massOf (domOf (framesOf tables)) (netNodes (cpdsOf (framesOf tables))) x₀ (fun x => t.parents.map x = t.parents.map z) →
              ∃ q q', t.entry s (t.parents.map z) = some q ∧ t'.entry s (t.parents.map z) = some q' ∧ |q' - q| ≤ ε) ∧
          ∀ okName : V → Bool, (∀ v ∈ net.nodes, okName v = true) →
            ∃ e, Engine.create okName (framesOf tables') = .ok e ∧
            ∀ ev : List (V × S), (ev.map Prod.fst).Nodup → (∀ q ∈ ev, q.1 ∈ net.nodes ∧ q.2 ∈ statesOf net q.1) →
              0 < massOf (domOf (framesOf tables)) (netNodes (cpdsOf (framesOf tables))) x₀ (Agrees ev) →
              ∃ out, e.query nd ev = .ok out ∧ ReportsWithin ε (statesOf net) net.nodes (fun v s =>
                massOf (domOf (framesOf tables)) (netNodes (cpdsOf (framesOf tables))) x₀ (fun x => Agrees ev x ∧ x v = s) /
                  massOf (domOf (framesOf tables)) (netNodes (cpdsOf (framesOf tables))) x₀ (Agrees ev)) out := by
  have hw := hr.wf hE
  have hne : ∀ v ∈ net.nodes, statesOf net v ≠ [] := fun v hv => List.ne_nil_of_mem (hx₀ v hv)
  have hnodes : net₂.nodes = net.nodes := by rw [hw.nodes, (hr₂.wf hE).nodes]
  have hndn : net.nodes.Nodup := by rw [hw.nodes]; exact Verif.Network.nodesOfEdges_nodup E
  obtain ⟨tables', hc', -, hfit⟩ := Verif.Network.fitted_is_network hint hE hEne hr hne hess₀ hf
  rw [hc] at hc'
  cases hc'
  have hF := Verif.Network.framesWF hint hE hEne hr hne hf hc
  obtain ⟨states, df, ps, -, hdf, -, -, -⟩ := Verif.Network.fitCpds_ok hw hf
  obtain ⟨-, -, -, tables', hc', hkeys, h3⟩ := Verif.Network.fit_cpds_correct hint hE hr hne hdf hf
  rw [hc] at hc'
  cases hc'
  obtain ⟨tables', hc', -, h4⟩ := Verif.Network.fit_cpds_prob hint hE hr hne hess₀ hf
  rw [hc] at hc'
  cases hc'
  -- the conditional probabilities of the first network
  let par : V → List V := fun v => match tables.lookup v with | some t => t.parents | none => []
  let Q : V → S → List S → ℝ := fun v s ps => match tables.lookup v with | some t => (t.entry s ps).getD 0 | none => 0
  have hlk : ∀ v t, (v, t) ∈ tables → tables.lookup v = some t := fun v t ht => lookup_of_mem_nodup (by rw [hkeys]; exact hndn) ht
  have hpar : ∀ v t, (v, t) ∈ tables → par v = t.parents := fun v t ht => by simp only [par, hlk v t ht]
  have hQ : ∀ v t, (v, t) ∈ tables → ∀ s ps, Q v s ps = (t.entry s ps).getD 0 := fun v t ht s ps => by simp only [Q, hlk v t ht]
  have htab : ∀ v ∈ net.nodes, ∃ t, (v, t) ∈ tables := by
    intro v hv
    rw [← hkeys] at hv
    obtain ⟨q, hq, rfl⟩ := List.mem_map.1 hv
    exact ⟨q.2, hq⟩
  have hparl : ∀ v ∈ net.nodes, IsParentList E v (par v) := by
    intro v hv
    obtain ⟨t, ht⟩ := htab v hv
    rw [hpar v t ht]
    exact (h3 v t ht).2.1
  have hcond : IsConditional net par Q := by
    intro v hv cfg hcfg
    obtain ⟨t, ht⟩ := htab v hv
    rw [hpar v t ht] at hcfg
    obtain ⟨R, h5, h6⟩ := h4 v t ht
    have hcol := ((h3 v t ht).2.2.2.1 cfg).2 hcfg
    have hidx := (h3 v t ht).1
    rw [hidx] at h5 h6
    refine ⟨fun s hs => ?_, ?_⟩
    · rw [hQ v t ht, (h5 s cfg hs hcol).1]
      exact (h5 s cfg hs hcol).2
    · rw [← h6 cfg hcol]
      refine congrArg List.sum (List.map_congr_left fun s hs => ?_)
      rw [hQ v t ht, (h5 s cfg hs hcol).1, Option.getD_some]
  have hcond₂ : IsConditional net₂ par Q := by
    intro v hv cfg hcfg
    rw [hnodes] at hv
    rw [hst v hv]
    refine hcond v hv cfg ?_
    obtain ⟨t, ht⟩ := htab v hv
    refine config_congr (fun q hq => hst q ?_) hcfg
    rw [hpar v t ht] at hq
    exact hF.parents_nodes v t ht q hq
  have hM := isModel_of hE hr hF.nodup hparl hcond
  have hvars := hF.vars
  have hdom := hF.dom
  have hj : ∀ x, joint (netNodes (cpdsOf (framesOf tables))) x = truth net.nodes par Q x := by
    intro x
    rw [joint, truth, ← hkeys, netNodes, cpdsOf, framesOf, List.map_map, List.map_map, List.map_map, List.map_map]
    refine congrArg List.prod (List.map_congr_left ?_)
    rintro ⟨v, t⟩ ht
    change (t.entry (x v) (t.parents.map x)).getD 0 = Q v (x v) ((par v).map x)
    rw [hQ v t ht, hpar v t ht]
  have hmass : ∀ (A : (V → S) → Prop) [DecidablePred A], massOf (domOf (framesOf tables)) (netNodes (cpdsOf (framesOf tables))) x₀ A =
      massWith (statesOf net) net.nodes (truth net.nodes par Q) x₀ A := by
    intro A _
    rw [massOf, massWith, hvars, Verif.Network.worlds_congr hdom]
    exact congrArg List.sum (List.map_congr_left fun x _ => hj x)
  have hmass₂ : ∀ (A : (V → S) → Prop) [DecidablePred A], massWith (statesOf net₂) net.nodes (truth net.nodes par Q) x₀ A =
      massWith (statesOf net) net.nodes (truth net.nodes par Q) x₀ A := by
    intro A _
    rw [massWith, massWith, Verif.Network.worlds_congr hst]
  have hx₂ : ∀ v ∈ net₂.nodes, x₀ v ∈ statesOf net₂ v := fun v hv => by
    rw [hnodes] at hv
    rw [hst v hv]
    exact hx₀ v hv
  obtain ⟨n₀, hn₀⟩ := fit_cpds_consistent hint hE hEne hr₂ hx₂ (par := par) (by rw [hnodes]; exact hparl) hcond₂ ha hess hε hp
  refine ⟨n₀, fun n hn Ω _ P _ pick U hU nd hnd => ?_⟩
  have hM' : IsModel (domOf (framesOf tables)) ((netNodes (cpdsOf (framesOf tables))).map Node.var) par Q := by
    rw [hvars]
    refine ⟨hM.nodup, fun v hv => by rw [hdom v hv]; exact hM.states v hv, hM.parents, hM.parents_nodup, hM.acyclic, fun v hv ps hps s hs => ?_,
      fun v hv ps hps => ?_⟩
    · rw [hdom v hv] at hs
      exact hM.nonneg v hv ps (config_congr (fun q hq => hdom q (hM.parents v hv q hq)) hps) s hs
    · rw [hdom v hv]
      exact hM.sum v hv ps (config_congr (fun q hq => hdom q (hM.parents v hv q hq)) hps)
  obtain ⟨X, hX, hXs⟩ := samples_are_rows hnd hfit (x₀ := x₀) (by rw [hvars]; exact fun v hv => by rw [hdom v hv]; exact hx₀ v hv) hM'
    (by rw [hvars]; exact hj) hU n
  rw [hvars] at hX hXs
  have hX₂ : RowsFrom P (statesOf net₂) net₂.nodes par Q X := by
    rw [hnodes]
    exact hX.congr fun v hv => by rw [hdom v hv, hst v hv]
  obtain ⟨G, hG, hPG, hgood⟩ := hn₀ n hn P X hX₂
  have hnull : P {ω | ∀ k i, 0 < U k i ω}ᶜ = 0 := by
    refine measure_mono_null ?_ hU.positive
    intro ω hω
    have hω : ¬ ∀ k i, 0 < U k i ω := hω
    push Not at hω
    obtain ⟨k, i, hz⟩ := hω
    exact ⟨k, i, le_antisymm hz (hU.range k i ω).1⟩
  refine ⟨G ∩ {ω | ∀ k i, 0 < U k i ω}, hG.inter hU.positive_measurable, by rw [measure_inter_conull hnull]; exact hPG, ?_⟩
  rintro ω ⟨hωG, hωU⟩
  obtain ⟨ss, hss, hl, hlook⟩ := hXs ω hωU
  refine ⟨ss, hss, fun h ref cols hcols hdf => ?_⟩
  have hrows : RowsAre net₂.nodes (frameOf cols ss) fun i => X i ω := by
    rw [hnodes]
    refine ⟨hcols, fun i v => (ss[i]'(by rw [hl]; exact i.2)).lookup v, ?_, fun i v hv => hlook i v hv⟩
    refine List.ext_getElem (by simp [frameOf, hl]) fun i h1 h2 => ?_
    simp [frameOf]
  obtain ⟨net', h', tables', t1, t2, t3, t4, t5⟩ := hgood ω hωG h ref _ hdf hrows
  refine ⟨net', h', tables', t1, t2, by rw [t3, hnodes, hkeys], ?_, ?_⟩
  · intro v t t' ht ht'
    have hv : v ∈ net.nodes := by rw [← hkeys]; exact List.mem_map_of_mem ht
    obtain ⟨u1, u2⟩ := t4 v t' ht'
    rw [hpar v t ht] at u1 u2
    refine ⟨u1, fun s hs z hz hpos => ?_⟩
    have hcfg : IsConfig net t.parents (t.parents.map z) := by
      rw [IsConfig, List.forall₂_map_left_iff, List.forall₂_same]
      exact fun q hq => hz q (hF.parents_nodes v t ht q hq)
    have hent := (h3 v t ht).2.2.2.2 s hs _ hcfg
    obtain ⟨q', u3, u4⟩ := u2 s (by rw [hst v hv]; exact hs) z (by rw [hnodes]; exact fun u hu => by rw [hst u hu]; exact hz u hu)
      (by rw [hnodes, hmass₂, ← hmass]; exact hpos)
    rw [hQ v t ht, hent, Option.getD_some] at u4
    exact ⟨_, q', hent, u3, u4⟩
  · intro okName hok
    obtain ⟨e, he, hq⟩ := t5 nd hnd okName (by rw [hnodes]; exact hok)
    refine ⟨e, he, fun ev hk hev hpos => ?_⟩
    obtain ⟨out, ho, hrep⟩ := hq ev hk (fun q hq => by rw [hnodes, hst _ (hev q hq).1]; exact hev q hq) (by rw [hnodes, hmass₂, ← hmass]; exact hpos)
    rw [hnodes] at hrep
    refine ⟨out, ho, hrep.vars, fun q hq => ?_, fun q hq r hrq => ?_⟩
    · rw [← hst q.1 (by rw [← hrep.vars]; exact List.mem_map_of_mem hq)]
      exact hrep.states q hq
    · have := hrep.probs q hq r hrq
      rw [hmass₂, hmass₂] at this
      rw [hmass, hmass]
      exact this

end

end Verif.Consistent
