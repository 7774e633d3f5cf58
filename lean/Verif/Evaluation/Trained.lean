import Verif.Evaluation.Limit
import Verif.Consistent.Stream

/-!
# C151: train on enough data, test on enough data
-/

namespace Verif.Evaluation

open Verif.Network Verif.Str MeasureTheory ProbabilityTheory Filter Topology
open Verif.Consistent (RowsAre RowsFrom countP_ofFn truth cell stream_close predict_close isModel_of states_nodup count_eq massWith_near predictions_become_optimal)
open Verif.BBN (massWith worlds)
open Verif.Graph (EdgeRel)

section
variable {S : Type} [LinearOrder S] {Ω : Type} [MeasurableSpace Ω]

/-- Specification: a rule that predicts `v` from the values of the nodes, without looking at `v` and its descendants. -/
def IsRule {V : Type} (nodes : List V) (E : List (V × V)) (v : V) (f : (V → S) → S) : Prop :=
  ∀ x y : V → S, (∀ u ∈ nodes, ¬ Relation.ReflTransGen (EdgeRel E) v u → x u = y u) → f x = f y

/-- Specification: the probability that the rule is right, in a row of the distribution with the given conditional probabilities. -/
noncomputable def accuracyOf {V : Type} [LinearOrder V] (dom : V → List S) (nodes : List V) (par : V → List V) (Q : V → S → List S → ℝ) (x₀ : V → S) (v : V)
    (f : (V → S) → S) : ℝ := massWith dom nodes (truth nodes par Q) x₀ (fun x => f x = x v)

/-- Parents are no descendants. -/
theorem parent_rule {V : Type} [LinearOrder V] {E : List (V × V)} (hE : Graph.Acyclic E) {nodes : List V} (hn : ∀ e ∈ E, e.1 ∈ nodes) {v : V}
    {l : List V} (hl : IsParentList E v l) (g : List S → S) : IsRule nodes E v fun x => g (l.map x) := by
  intro x y hxy
  show g _ = g _
  congr 1
  refine List.map_congr_left fun p hp => hxy p (hn _ ((hl.2 p).1 hp)) fun hvp => ?_
  exact hE p (Relation.TransGen.head' ((hl.2 p).1 hp) hvp)

/-- **C151**: train on enough rows of a distribution with the structure of the network, by any method, and evaluate on enough rows of the distribution.  Almost
surely the accuracy that `classification_report` returns is close to `c`, the largest probability of being right that any rule has that does not look at
the node and its descendants.  Nothing is assumed about how training and test rows depend on each other; they may be the same. -/
theorem trained_accuracy {int : ℕ → S} (hint : Function.Injective int) {ns : List Str} {E : List (Str × Str)} (hE : IsStructure ns E) (hEne : E ≠ [])
    {net : Net Str S ℝ} (hr : Reach int ns E net) {x₀ : Str → S} (hx₀ : ∀ v ∈ net.nodes, x₀ v ∈ statesOf net v)
    {par : Str → List Str} (hpar : ∀ v ∈ net.nodes, IsParentList E v (par v)) {Q : Str → S → List S → ℝ} (hQ : IsConditional net par Q)
    {P : Measure Ω} [IsProbabilityMeasure P] {R X : ℕ → Ω → Str → S} (hR : RowsFrom P (statesOf net) net.nodes par Q R)
    (hX : RowsFrom P (statesOf net) net.nodes par Q X) {v : Str} (hv : v ∈ net.nodes) :
    ∃ c, IsGreatest (accuracyOf (statesOf net) net.nodes par Q x₀ v '' {f | IsRule net.nodes E v f}) c ∧
      ∀ᵐ ω ∂P, ∀ a : FitArgs ℝ, GoodArgs a → (∀ n, a.ess = some n → 0 < n) → ∀ ε > 0, ∃ n₀ : ℕ, ∀ n ≥ n₀, ∀ m ≥ n₀,
        ∀ (h : Heap Str S) (ref : ℕ) (train : DF Str S), h[ref]? = some train → RowsAre net.nodes train (fun i : Fin n => R i ω) →
        ∃ net' h', fitCpds int net h ref a = (net', h', .ok ()) ∧
        ∀ (h₂ : Heap Str S) (ref₂ : ℕ) (test : DF Str S), h₂[ref₂]? = some test → RowsAre net.nodes test (fun i : Fin m => X i ω) →
        ∀ (oracle : DF Str S → List ℕ) (predName : Str → Str) (str : S → Str),
        (∀ s ∈ statesOf net v, ∀ s' ∈ statesOf net v, str s = str s' → s = s') →
        ∀ order order' : List S, order.Perm (statesOf net v) → order'.Perm (statesOf net v) → ∀ acc : Bool,
        ∃ (h₃ : Heap Str S) (report : List (Str × Entry ℝ)) (x : ℝ) (weightedAvg : Scores ℝ),
          classificationReport oracle int predName str order order' acc net' h₂ ref₂ v = (h₃, .ok report) ∧
          (Dict.get? report "accuracy".toList = some (.number x) ∨ Dict.get? report "micro avg".toList = some (.scores ⟨x, x, x, m⟩)) ∧
          Dict.get? report "weighted avg".toList = some (.scores weightedAvg) ∧ weightedAvg.recall = x ∧ |x - c| ≤ ε := by
  classical
  have hw := hr.wf hE
  have hne : ∀ v ∈ net.nodes, statesOf net v ≠ [] := fun v hv => List.ne_nil_of_mem (hx₀ v hv)
  have hM := isModel_of hE hr (states_nodup hE hr) hpar hQ
  have hnodes : ∀ e ∈ E, e.1 ∈ net.nodes := by
    intro e he
    rw [hw.nodes]
    exact mem_nodesOfEdges.2 ⟨e, he, Or.inl rfl⟩
  have hacyc : Graph.Acyclic E := hw.acyclic
  have hpn : ∀ p ∈ par v, p ∈ net.nodes := fun p hp => hnodes _ (((hpar v hv).2 p).1 hp)
  -- the best rule
  obtain ⟨ω₀, hω₀⟩ := (predictions_become_optimal hint hE hEne hr hx₀ hpar hQ hR).exists
  obtain ⟨n₁, hn₁⟩ := hω₀ {} (Or.inl rfl) (by simp)
  obtain ⟨net₁, h₁, -, hopt⟩ := hn₁ n₁ le_rfl [⟨net.nodes, List.ofFn fun (i : Fin n₁) u => some (R i ω₀ u)⟩] 0 _ rfl
    ⟨fun _ h => h, _, rfl, fun _ _ _ => rfl⟩
  obtain ⟨g₀, -, -, hg₀⟩ := hopt v hv
  refine ⟨accuracyOf (statesOf net) net.nodes par Q x₀ v fun x => g₀ ((par v).map x), ⟨⟨_, parent_rule hacyc hnodes (hpar v hv) g₀, rfl⟩, ?_⟩, ?_⟩
  · rintro _ ⟨f, hf, rfl⟩
    exact hg₀ f hf
  filter_upwards [predictions_become_optimal hint hE hEne hr hx₀ hpar hQ hR, stream_close hM x₀ hX] with ω hω hωX
  intro a ha hess ε hε
  obtain ⟨n₂, hn₂⟩ := hω a ha hess
  obtain ⟨m₂, hm₂⟩ := hωX.2 (ε / ((worlds (statesOf net) net.nodes x₀).length + 1)) (by positivity)
  refine ⟨max (max n₂ m₂) 1, fun n hn m hm h ref train htr hrows => ?_⟩
  obtain ⟨net', h', hf, hpred⟩ := hn₂ n (by omega) h ref train htr hrows
  refine ⟨net', h', hf, ?_⟩
  intro h₂ ref₂ test htest htrows oracle predName str hstr order order' hord hord' acc
  obtain ⟨g, hg, -, hbest⟩ := hpred v hv
  obtain ⟨-, -, -, tables, hc, hkeys, htab⟩ := fit_cpds_correct hint hE hr hne htr hf
  obtain ⟨t, ht⟩ : ∃ t, (v, t) ∈ tables := by
    obtain ⟨⟨w, t⟩, ht, e⟩ := List.mem_map.1 (hkeys ▸ hv : v ∈ tables.map Prod.fst)
    exact ⟨t, by rw [← e]; exact ht⟩
  have hmem : ∀ p, p ∈ t.parents ↔ p ∈ par v := fun p => by
    rw [(htab _ _ ht).2.1.2 p, (hpar v hv).2 p]
  obtain ⟨hcols, rows, hrw, hval⟩ := htrows
  have hst : ∀ i, ∀ u ∈ net.nodes, X i ω u ∈ statesOf net u := hωX.1
  have hk : ∀ r ∈ test.rows, ∀ p ∈ net.nodes, ∃ s ∈ statesOf net p, r p = some s := by
    intro r hr p hp
    rw [hrw, List.mem_ofFn] at hr
    obtain ⟨i, rfl⟩ := hr
    exact ⟨X i ω p, hst i p hp, hval i p hp⟩
  have hlen : test.rows.length = m := by rw [hrw, List.length_ofFn]
  have hnil : test.rows ≠ [] := by
    intro h0
    rw [h0] at hlen
    simp at hlen
    omega
  have hpt : ∀ p ∈ v :: t.parents, p ∈ net.nodes := by
    intro p hp
    rcases List.mem_cons.1 hp with rfl | hp
    · exact hv
    · exact hpn p ((hmem p).1 hp)
  -- the predictions
  obtain ⟨h₄, out, hout, hgout⟩ := hg h₂ ref₂ test htest (fun u hu => hcols u (hpn u hu)) (fun r hr u hu => hk r hr u (hpn u hu)) oracle predName
  obtain ⟨h₅, out', hout', -, -, hargmax⟩ := predict_argmax hint hE hr hne hf hc ht htest (fun u hu => hcols u (hpt u (List.mem_cons_of_mem _ hu)))
    (fun r hr u hu => hk r hr u (hpt u (List.mem_cons_of_mem _ hu))) oracle predName
  rw [hout] at hout'
  cases hout'
  obtain ⟨h₃, pred, report, e, x, macroAvg, weightedAvg, -, hp, hrep, -, hx, hacc, -, -, -, -, -, hwa, -, -, -, -, hwr⟩ :=
    classificationReport_averages hint hE hr hne hf hc ht htest (fun p hp => hcols p (hpt p hp)) (fun r hr p hp => hk r hr p (hpt p hp)) hnil oracle predName
      hstr hord hord' acc
  have hpred' : pred = List.ofFn fun i : Fin m => g ((par v).map (X i ω)) := by
    have hl : pred.length = m := by rw [← hp.length_eq, hlen]
    apply List.ext_getElem (by simp [hl])
    intro i h1 h2
    have hi : i < m := hl ▸ h1
    have hi' : i < out.rows.length := by rw [← hgout.length_eq, hlen]; exact hi
    obtain ⟨hs, ps, y, hps, hy, hmax⟩ := (List.forall₂_iff_get.1 hp).2 i (hlen ▸ hi) h1
    obtain ⟨s', hs', ps', y', hps', hr', hy', hmax'⟩ := (List.forall₂_iff_get.1 hargmax).2 i (hlen ▸ hi) hi'
    obtain ⟨ps₂, hps₂, hr₂⟩ := (List.forall₂_iff_get.1 hgout).2 i (hlen ▸ hi) hi'
    simp only [List.get_eq_getElem] at hs hps hy hmax hs' hps' hr' hy' hmax' hps₂ hr₂
    have e1 : ps = ps' := List.map_injective_iff.2 (Option.some_injective S) (hps.symm.trans hps')
    subst e1
    have e2 : pred[i] = s' := MostLikely.unique ⟨hs, y, hy, hmax⟩ ⟨hs', y', hy', hmax'⟩
    have e3 : ps₂ = (par v).map (X i ω) := by
      apply List.map_injective_iff.2 (Option.some_injective S)
      rw [← hps₂, List.map_map]
      simp only [hrw, List.getElem_ofFn]
      exact List.map_congr_left fun u hu => hval ⟨i, hi⟩ u (hpn u hu)
    rw [List.getElem_ofFn, e2]
    rw [hr'] at hr₂
    rw [e3] at hr₂
    exact Option.some_inj.1 hr₂
  refine ⟨h₃, report, x, weightedAvg, hrep, ?_, hwa, hwr, ?_⟩
  · rw [hlen] at hacc
    split_ifs at hacc with h0
    · exact .inl hacc.1
    · exact .inr hacc.2
  -- the share of right predictions
  have hsame : accuracyOf (statesOf net) net.nodes par Q x₀ v (fun x => g₀ ((par v).map x)) =
      accuracyOf (statesOf net) net.nodes par Q x₀ v (fun x => g ((par v).map x)) :=
    le_antisymm (hbest _ (parent_rule hacyc hnodes (hpar v hv) g₀)) (hg₀ _ (parent_rule hacyc hnodes (hpar v hv) g))
  have hcount : (test.rows.zip pred).countP (fun q => decide (q.1 v = some q.2)) =
      (Finset.univ.filter fun i : Fin m => g ((par v).map (X i ω)) = X i ω v).card := by
    rw [hrw, hpred', countP_zip_ofFn _ _ (fun q : (Str → Option S) × S => q.1 v = some q.2)]
    exact congrArg Finset.card (Finset.filter_congr fun i _ => by dsimp only; rw [hval i v hv, Option.some_inj, eq_comm])
  rw [hsame, hx, hcount, hlen, count_eq hM.nodup (fun u hu => states_nodup hE hr u) (R := fun (i : Fin m) => X i ω) (fun i => hst i) x₀
    (fun x => g ((par v).map x) = x v) (fun x y hxy => by
      rw [hxy v hv, List.map_congr_left fun u hu => hxy u (hpn u hu)])]
  have hdiv : massWith (statesOf net) net.nodes (fun σ => (cell net.nodes (fun i : Fin m => X i ω) σ : ℝ)) x₀ (fun x => g ((par v).map x) = x v) / m =
      massWith (statesOf net) net.nodes (fun σ => (cell net.nodes (fun i : Fin m => X i ω) σ : ℝ) / m) x₀ (fun x => g ((par v).map x) = x v) := by
    unfold massWith
    rw [div_eq_mul_inv, ← List.sum_map_mul_right]
    simp only [div_eq_mul_inv]
  rw [hdiv, accuracyOf]
  refine (massWith_near (by positivity) (hm₂ m (by omega)) _).trans ?_
  rw [mul_div_assoc', div_le_iff₀ (by positivity)]
  nlinarith

end

end Verif.Evaluation
