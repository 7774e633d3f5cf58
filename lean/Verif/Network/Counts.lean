import Verif.Network.PredictQuery

/-!
# C106, C107: what fitting and predicting depend on

`predict` returns the state that was seen most often with the given states of the parents.  Fitted CPDs depend on the data only through
the numbers of equal rows.
-/

namespace Verif.Network

open Verif.BBN (lookup_mem lookup_of_mem_nodup lookup_isSome_iff)
open Function

section
variable {V S K : Type} [LinearOrder V] [LinearOrder S] [Field K] [LinearOrder K]
  [IsStrictOrderedRing K]

/-- Estimates are ordered like the numbers of observations. -/
theorem estimate_le_iff {a : FitArgs K} (hess : ∀ n, a.ess = some n → 0 < n) {ks : List S} (cfgs : ℕ) (N : S → ℕ) {s s' : S}
    (hs : s ∈ ks) (hs' : s' ∈ ks) : estimate a ks cfgs N s ≤ estimate a ks cfgs N s' ↔ N s ≤ N s' := by
  have h0 : 0 ≤ a.ess.getD 0 := by
    cases h : a.ess with
    | none => simp
    | some n => simpa using (hess n h).le
  have hle : ∀ t ∈ ks, N t ≤ (ks.map N).sum := fun t ht => List.single_le_sum (by simp) _ (List.mem_map_of_mem ht)
  have hlen : (0 : K) < ks.length := by exact_mod_cast List.length_pos_iff.2 (List.ne_nil_of_mem hs)
  unfold estimate
  dsimp only
  split
  · split
    · rename_i h
      have h1 := hle s hs
      have h2 := hle s' hs'
      simp only [le_refl, true_iff]
      omega
    · rename_i h
      have hpos : (0 : K) < ((ks.map N).sum : ℕ) := by exact_mod_cast Nat.pos_of_ne_zero h
      rw [div_le_div_iff_of_pos_right hpos]
      exact Nat.cast_le
  · split
    · have hpos : (0 : K) < ((ks.map N).sum : ℕ) + ks.length := by positivity
      rw [div_le_div_iff_of_pos_right hpos, add_le_add_iff_right]
      exact Nat.cast_le
    · set α : K := a.ess.getD 0 / (ks.length * cfgs) with hα
      have hα0 : 0 ≤ α := by positivity
      by_cases h : (ks.map N).sum = 0
      · have h1 := hle s hs
        have h2 := hle s' hs'
        have e1 : N s = 0 := by omega
        have e2 : N s' = 0 := by omega
        rw [e1, e2]
        simp
      · have hpos : (0 : K) < ((ks.map N).sum : ℕ) := by exact_mod_cast Nat.pos_of_ne_zero h
        have hpos' : (0 : K) < ((ks.map N).sum : ℕ) + ks.length * α := by positivity
        rw [div_le_div_iff_of_pos_right hpos', add_le_add_iff_right]
        exact Nat.cast_le

/-- **C106**: after fitting, by any method, `predict` returns in each complete row the state of the node that occurs most often in the
training data (in rows without unknown states) together with the states of the parents in this row; the smallest such state if there are
several. -/
theorem predict_most_frequent {int : ℕ → S} (hint : Injective int) {ns : List V} {E : List (V × V)}
    (hE : IsStructure ns E) {net net' : Net V S K} (hr : Reach int ns E net)
    (hne : ∀ v ∈ net.nodes, statesOf net v ≠ []) {h₀ h₁ : Heap V S} {ref₀ : ℕ} {train : DF V S} (htrain : h₀[ref₀]? = some train)
    {a : FitArgs K} (hess : ∀ n, a.ess = some n → 0 < n)
    (hf : fitCpds int net h₀ ref₀ a = (net', h₁, .ok ()))
    {v : V} (hv : v ∈ net.nodes) {parents : List V} (hpar : IsParentList E v parents)
    {h : Heap V S} {ref : ℕ} {df : DF V S} (hdf : h[ref]? = some df)
    (hcols : ∀ p ∈ parents, p ∈ df.cols)
    (hk : ∀ r ∈ df.rows, ∀ p ∈ parents, ∃ s ∈ statesOf net p, r p = some s)
    (oracle : DF V S → List ℕ) (predName : V → V) :
    ∃ h' out, predict oracle int predName net' h ref v = (h', .ok out) ∧
      List.Forall₂ (fun r r' => ∃ s ∈ statesOf net v, r' (predName v) = some s ∧ ∃ ps, parents.map r = ps.map some ∧
        ∀ s' ∈ statesOf net v, observed net train v parents s' ps ≤ observed net train v parents s ps ∧
          (s' < s → observed net train v parents s' ps < observed net train v parents s ps))
        df.rows out.rows := by
  obtain ⟨-, -, -, tables, hc, hkeys, h3⟩ := fit_cpds_correct hint hE hr hne htrain hf
  rw [← hkeys] at hv
  obtain ⟨⟨v, t⟩, ht, rfl⟩ := List.mem_map.1 hv
  obtain ⟨-, hp, -, -, hentry⟩ := h3 v t ht
  cases parentList_unique hp hpar
  obtain ⟨h', out, h1, -, -, h2⟩ := predict_argmax hint hE hr hne hf hc ht hdf hcols hk oracle predName
  refine ⟨h', out, h1, ((List.forall₂_and_left df.rows _).2 ⟨hk, h2⟩).imp ?_⟩
  rintro r r' ⟨hkr, s, hs, ps, x, hps, hr', hx, hmax⟩
  refine ⟨s, hs, hr', ps, hps, fun s' hs' => ?_⟩
  have hcfg := row_config hkr
  have hpseq : ps = t.parents.filterMap r := by
    apply List.map_injective_iff.2 (Option.some_injective S)
    exact hps.symm.trans hcfg.1
  have hconf : IsConfig net t.parents ps := hpseq ▸ hcfg.2
  obtain ⟨y, hy, hyx, hlt⟩ := hmax s' hs'
  rw [hentry s hs ps hconf] at hx
  rw [hentry s' hs' ps hconf] at hy
  cases hx
  cases hy
  rw [estimate_le_iff hess _ _ hs' hs] at hyx
  refine ⟨hyx, fun h => ?_⟩
  have := hlt h
  rw [← not_le, estimate_le_iff hess _ _ hs hs', not_le] at this
  exact this

/-! ### C107 -/

/-- Specification: the rows that count (every node has one of its states), reduced to the nodes of the network. -/
def usedRows (net : Net V S K) (df : DF V S) : List (List (Option S)) := (df.rows.filter fun r => Known net r).map fun r => net.nodes.map r

omit [Field K] [LinearOrder K] [IsStrictOrderedRing K] in
theorem observed_eq_usedRows {net : Net V S K} {df : DF V S} {v : V} {par : List V} (hv : v ∈ net.nodes)
    (hp : ∀ p ∈ par, p ∈ net.nodes) (s : S) (ps : List S) :
    observed net df v par s ps = (usedRows net df).countP fun l => (net.nodes.zip l).lookup v = some (some s) ∧
      par.map (fun p => (net.nodes.zip l).lookup p) = ps.map fun s => some (some s) := by
  unfold observed usedRows
  rw [List.countP_map, List.countP_filter]
  apply List.countP_congr
  intro r _
  have hl : ∀ u ∈ net.nodes, (net.nodes.zip (net.nodes.map r)).lookup u = some (r u) := by
    intro u hu
    rw [lookup_zip_map, if_pos hu]
  have hm : par.map (fun p => (net.nodes.zip (net.nodes.map r)).lookup p) = (par.map r).map some := by
    rw [List.map_map]
    exact List.map_congr_left fun p hpp => hl p (hp p hpp)
  have hm' : ps.map (fun s => some (some s)) = (ps.map some).map some := by rw [List.map_map]; rfl
  simp only [comp, hl v hv, hm, hm', decide_eq_true_eq, Bool.and_eq_true, Option.some.injEq]
  rw [(List.map_injective_iff.2 (Option.some_injective (Option S))).eq_iff]
  tauto

omit [Field K] [LinearOrder K] [IsStrictOrderedRing K] in
theorem observed_perm {net₁ net₂ : Net V S K} (hn : net₁.nodes = net₂.nodes) {df₁ df₂ : DF V S}
    (hperm : (usedRows net₁ df₁).Perm (usedRows net₂ df₂)) {v : V} {par : List V} (hv : v ∈ net₁.nodes)
    (hp : ∀ p ∈ par, p ∈ net₁.nodes) (s : S) (ps : List S) :
    observed net₁ df₁ v par s ps = observed net₂ df₂ v par s ps := by
  rw [observed_eq_usedRows hv hp, observed_eq_usedRows (hn ▸ hv) (fun p h => hn ▸ hp p h), hperm.countP_eq, hn]

omit [LinearOrder K] [IsStrictOrderedRing K] in
/-- The table of a node after a fit, from the estimates. -/
theorem fit_tables {int : ℕ → S} (hint : Injective int) {ns : List V} {E : List (V × V)}
    (hE : IsStructure ns E) {net net' : Net V S K} (hr : Reach int ns E net)
    (hne : ∀ v ∈ net.nodes, statesOf net v ≠ []) {h h' : Heap V S} {ref : ℕ} {df : DF V S}
    (hdf : h[ref]? = some df) {a : FitArgs K}
    (hf : fitCpds int net h ref a = (net', h', .ok ())) :
    cpds net' = .ok (net.nodes.map fun v => (v, mkTable (statesOf net v) (sortedParents E v)
      (product ((sortedParents E v).map (statesOf net))) fun s ps => estimate a (statesOf net v)
        ((sortedParents E v).map fun p => (statesOf net p).length).prod
        (fun s => observed net df v (sortedParents E v) s ps) s)) := by
  have hw := hr.wf hE
  obtain ⟨states, df', ps, hst, hdf', -, hps, rfl⟩ := fitCpds_ok hw hf
  rw [hdf] at hdf'
  cases hdf'
  have he := hw.encWF hst
  rw [fitCpds_cpds hint hE hw hne hst df ps]
  congr 1
  apply List.map_congr_left
  intro v hv
  rw [fittedTable, hw.edges]
  congr 2
  funext s t
  rw [probOf_eq_estimate hps, prod_length_stateNames hst he]
  rw [stateNames_eq he, List.length_map, statesOf_eq hst]

omit [LinearOrder K] [IsStrictOrderedRing K] in
/-- Whether `pseudoOf` succeeds does not depend on the states. -/
theorem pseudoOf_any {names names' : V → List S} {a : FitArgs K} {ps : V → List V → Pseudo K} (h : pseudoOf names a = .ok ps) :
    ∃ ps', pseudoOf names' a = .ok ps' := by
  unfold pseudoOf at h ⊢
  split
  · exact ⟨_, rfl⟩
  · rename_i h1
    rw [if_neg h1] at h
    split
    · rename_i h2
      rw [if_pos h2] at h
      split
      · exact ⟨_, rfl⟩
      · rename_i h3
        rw [if_neg h3] at h
        split
        · rename_i h4
          rw [if_pos h4] at h
          cases he : a.ess with
          | none => rw [he] at h; cases h
          | some n => exact ⟨_, rfl⟩
        · rename_i h4
          rw [if_neg h4] at h
          cases h
    · rename_i h2
      rw [if_neg h2] at h
      cases h

omit [LinearOrder K] [IsStrictOrderedRing K] in
theorem estimate_congr {a : FitArgs K} {ks : List S} {cfgs : ℕ} {N N' : S → ℕ} (h : ∀ s ∈ ks, N s = N' s) {s : S} (hs : s ∈ ks) :
    estimate a ks cfgs N s = estimate a ks cfgs N' s := by
  have hmap : ks.map N = ks.map N' := List.map_congr_left h
  unfold estimate
  dsimp only
  rw [hmap, h s hs]

/-- Frequencies do not change if all numbers are multiplied. -/
theorem estimate_scale {a : FitArgs K} (ha : a.method = "MaximumLikelihoodEstimator") {ks : List S} {cfgs : ℕ} {N N' : S → ℕ} {k₁ k₂ : ℕ}
    (hk₁ : 0 < k₁) (hk₂ : 0 < k₂) (h : ∀ s, k₁ * N s = k₂ * N' s) {s : S} (hs : s ∈ ks) :
    estimate a ks cfgs N s = estimate a ks cfgs N' s := by
  have hsum : k₁ * (ks.map N).sum = k₂ * (ks.map N').sum := by
    rw [← List.sum_map_mul_left, ← List.sum_map_mul_left]
    simp only [h]
  unfold estimate
  dsimp only
  rw [if_pos ha, if_pos ha]
  by_cases h0 : (ks.map N).sum = 0
  · have h0' : (ks.map N').sum = 0 := by
      rw [h0, mul_zero] at hsum
      exact (Nat.mul_eq_zero.1 hsum.symm).resolve_left hk₂.ne'
    rw [if_pos h0, if_pos h0']
  · have h0' : (ks.map N').sum ≠ 0 := by
      intro h0'
      rw [h0', mul_zero] at hsum
      exact h0 ((Nat.mul_eq_zero.1 hsum).resolve_left hk₁.ne')
    rw [if_neg h0, if_neg h0', div_eq_div_iff (by exact_mod_cast h0) (by exact_mod_cast h0')]
    have : k₁ * k₂ * (N s * (ks.map N').sum) = k₁ * k₂ * (N' s * (ks.map N).sum) := by
      calc k₁ * k₂ * (N s * (ks.map N').sum) = (k₁ * N s) * (k₂ * (ks.map N').sum) := by ring
        _ = (k₂ * N' s) * (k₁ * (ks.map N).sum) := by rw [h s, hsum]
        _ = k₁ * k₂ * (N' s * (ks.map N).sum) := by ring
    have := Nat.eq_of_mul_eq_mul_left (Nat.mul_pos hk₁ hk₂) this
    exact_mod_cast this

omit [LinearOrder K] [IsStrictOrderedRing K] in
/-- Two fits of networks with the same structure and the same states, if the estimates agree. -/
theorem fit_same {int : ℕ → S} (hint : Injective int) {ns : List V} {E : List (V × V)}
    (hE : IsStructure ns E) (hEne : E ≠ []) {net₁ net₂ net₁' : Net V S K} (hr₁ : Reach int ns E net₁) (hr₂ : Reach int ns E net₂)
    (hst : ∀ v ∈ net₁.nodes, statesOf net₁ v = statesOf net₂ v)
    (hne : ∀ v ∈ net₁.nodes, statesOf net₁ v ≠ []) {h₁ h₁' h₂ : Heap V S} {ref₁ ref₂ : ℕ} {df₁ df₂ : DF V S}
    (hdf₁ : h₁[ref₁]? = some df₁) (hdf₂ : h₂[ref₂]? = some df₂) {a : FitArgs K}
    (hf : fitCpds int net₁ h₁ ref₁ a = (net₁', h₁', .ok ())) (hcols : ∀ v ∈ net₁.nodes, v ∈ df₂.cols)
    (hest : ∀ v ∈ net₁.nodes, ∀ ps, ∀ s ∈ statesOf net₁ v,
      estimate a (statesOf net₁ v) ((sortedParents E v).map fun p => (statesOf net₁ p).length).prod
        (fun s => observed net₁ df₁ v (sortedParents E v) s ps) s =
      estimate a (statesOf net₁ v) ((sortedParents E v).map fun p => (statesOf net₁ p).length).prod
        (fun s => observed net₂ df₂ v (sortedParents E v) s ps) s) :
    ∃ net₂' h₂', fitCpds int net₂ h₂ ref₂ a = (net₂', h₂', .ok ()) ∧ cpds net₂' = cpds net₁' := by
  have hw₁ := hr₁.wf hE
  have hw₂ := hr₂.wf hE
  have hn : net₁.nodes = net₂.nodes := hw₁.nodes.trans hw₂.nodes.symm
  obtain ⟨states₁, _, ps₁, hst₁, -, -, hps₁, -⟩ := fitCpds_ok hw₁ hf
  obtain ⟨states₂, hst₂⟩ : ∃ states₂, net₂.states = some states₂ := by
    cases h : net₂.states with
    | some s => exact ⟨s, rfl⟩
    | none =>
      exfalso
      have hno : net₁.nodes = [] := by
        rw [List.eq_nil_iff_forall_not_mem]
        intro v hv
        apply hne v hv
        rw [hst v hv, statesOf, h]
      obtain ⟨e, he⟩ := List.exists_mem_of_ne_nil E hEne
      have : e.1 ∈ net₁.nodes := by
        rw [hw₁.nodes]
        exact mem_nodesOfEdges.2 ⟨e, he, Or.inl rfl⟩
      rw [hno] at this
      cases this
  obtain ⟨ps₂, hps₂⟩ := pseudoOf_any (names' := stateNames int states₂) hps₁
  have h2 := fitCpds_eq (int := int) hw₂ hst₂ hdf₂ a
  rw [if_pos (fun v hv => hcols v (hn ▸ hv)), hps₂] at h2
  refine ⟨_, _, h2, ?_⟩
  rw [fit_tables hint hE hr₂ (fun v hv => by rw [← hst v (hn ▸ hv)]; exact hne v (hn ▸ hv)) hdf₂ h2,
    fit_tables hint hE hr₁ hne hdf₁ hf, hn]
  congr 1
  apply List.map_congr_left
  intro v hv
  rw [← hn] at hv
  have hpn : ∀ p ∈ sortedParents E v, p ∈ net₁.nodes := by
    intro p hp
    rw [hw₁.nodes]
    exact mem_nodesOfEdges.2 ⟨_, ((sortedParents_spec hE.edges_nodup v).2 p).1 hp, Or.inl rfl⟩
  have e1 : (sortedParents E v).map (statesOf net₂) = (sortedParents E v).map (statesOf net₁) :=
    List.map_congr_left fun p hp => (hst p (hpn p hp)).symm
  have e2 : (sortedParents E v).map (fun p => (statesOf net₂ p).length) = (sortedParents E v).map fun p => (statesOf net₁ p).length :=
    List.map_congr_left fun p hp => by rw [hst p (hpn p hp)]
  rw [e1, e2, ← hst v hv]
  unfold mkTable
  congr 2
  apply List.map_congr_left
  intro s hs
  apply List.map_congr_left
  intro ps _
  exact (hest v hv ps s hs).symm

omit [LinearOrder K] [IsStrictOrderedRing K] in
/-- **C107**: what `fit_cpds` stores depends only on the structure, the states of the nodes, the arguments, and on how often each
combination of states of all nodes occurs in the data.  The order of rows and columns, further columns, rows with nulls or unknown states, and all
that was done with the network before make no difference. -/
theorem fit_depends_on_counts {int : ℕ → S} (hint : Injective int) {ns : List V} {E : List (V × V)}
    (hE : IsStructure ns E) (hEne : E ≠ []) {net₁ net₂ net₁' : Net V S K} (hr₁ : Reach int ns E net₁) (hr₂ : Reach int ns E net₂)
    (hst : ∀ v ∈ net₁.nodes, statesOf net₁ v = statesOf net₂ v)
    (hne : ∀ v ∈ net₁.nodes, statesOf net₁ v ≠ []) {h₁ h₁' h₂ : Heap V S} {ref₁ ref₂ : ℕ} {df₁ df₂ : DF V S}
    (hdf₁ : h₁[ref₁]? = some df₁) (hdf₂ : h₂[ref₂]? = some df₂) {a : FitArgs K}
    (hf : fitCpds int net₁ h₁ ref₁ a = (net₁', h₁', .ok ())) (hcols : ∀ v ∈ net₁.nodes, v ∈ df₂.cols)
    (hperm : (usedRows net₁ df₁).Perm (usedRows net₂ df₂)) :
    ∃ net₂' h₂', fitCpds int net₂ h₂ ref₂ a = (net₂', h₂', .ok ()) ∧ cpds net₂' = cpds net₁' := by
  have hw₁ := hr₁.wf hE
  have hw₂ := hr₂.wf hE
  refine fit_same hint hE hEne hr₁ hr₂ hst hne hdf₁ hdf₂ hf hcols fun v hv ps s hs => ?_
  refine estimate_congr (fun s _ => ?_) hs
  refine observed_perm (hw₁.nodes.trans hw₂.nodes.symm) hperm hv (fun p hp => ?_) s ps
  rw [hw₁.nodes]
  exact mem_nodesOfEdges.2 ⟨_, ((sortedParents_spec hE.edges_nodup v).2 p).1 hp, Or.inl rfl⟩

/-- **C107**: maximum likelihood estimates depend only on relative frequencies: if every combination of states occurs `k₂` times in the
first data set whenever it occurs `k₁` times in the second, as when the data are repeated, the CPDs are the same. -/
theorem fit_depends_on_frequencies {int : ℕ → S} (hint : Injective int) {ns : List V} {E : List (V × V)}
    (hE : IsStructure ns E) (hEne : E ≠ []) {net₁ net₂ net₁' : Net V S K} (hr₁ : Reach int ns E net₁) (hr₂ : Reach int ns E net₂)
    (hst : ∀ v ∈ net₁.nodes, statesOf net₁ v = statesOf net₂ v)
    (hne : ∀ v ∈ net₁.nodes, statesOf net₁ v ≠ []) {h₁ h₁' h₂ : Heap V S} {ref₁ ref₂ : ℕ} {df₁ df₂ : DF V S}
    (hdf₁ : h₁[ref₁]? = some df₁) (hdf₂ : h₂[ref₂]? = some df₂) {a : FitArgs K} (ha : a.method = "MaximumLikelihoodEstimator")
    (hf : fitCpds int net₁ h₁ ref₁ a = (net₁', h₁', .ok ())) (hcols : ∀ v ∈ net₁.nodes, v ∈ df₂.cols) {k₁ k₂ : ℕ}
    (hk₁ : 0 < k₁) (hk₂ : 0 < k₂)
    (hperm : (List.replicate k₁ (usedRows net₁ df₁)).flatten.Perm (List.replicate k₂ (usedRows net₂ df₂)).flatten) :
    ∃ net₂' h₂', fitCpds int net₂ h₂ ref₂ a = (net₂', h₂', .ok ()) ∧ cpds net₂' = cpds net₁' := by
  have hw₁ := hr₁.wf hE
  have hw₂ := hr₂.wf hE
  have hn : net₁.nodes = net₂.nodes := hw₁.nodes.trans hw₂.nodes.symm
  refine fit_same hint hE hEne hr₁ hr₂ hst hne hdf₁ hdf₂ hf hcols fun v hv ps s hs => ?_
  have hp : ∀ p ∈ sortedParents E v, p ∈ net₁.nodes := by
    intro p hp
    rw [hw₁.nodes]
    exact mem_nodesOfEdges.2 ⟨_, ((sortedParents_spec hE.edges_nodup v).2 p).1 hp, Or.inl rfl⟩
  have hobs : ∀ s, k₁ * observed net₁ df₁ v (sortedParents E v) s ps = k₂ * observed net₂ df₂ v (sortedParents E v) s ps := by
    intro s
    rw [observed_eq_usedRows hv hp, observed_eq_usedRows (hn ▸ hv) (fun p h => hn ▸ hp p h), hn]
    have := hperm.countP_eq fun l => decide ((net₂.nodes.zip l).lookup v = some (some s) ∧
      (sortedParents E v).map (fun p => (net₂.nodes.zip l).lookup p) = ps.map fun s => some (some s))
    rw [List.countP_flatten, List.countP_flatten, List.map_replicate, List.map_replicate, List.sum_replicate, List.sum_replicate,
      nsmul_eq_mul, nsmul_eq_mul] at this
    exact this
  exact estimate_scale ha hk₁ hk₂ hobs hs

end

/-! ### Examples: the network of two nodes in `Witness` -/

section
open Witness

/-- C106 applies to this network: the row with the value 7 of the parent; 7 was seen twice with it, 5 never. -/
example : ∃ h' out, predict (fun _ => []) int (fun _ => 9) net₂ [df] 0 1 = (h', .ok out) ∧
      List.Forall₂ (fun r r' => ∃ s ∈ statesOf net₁ 1, r' 9 = some s ∧ ∃ ps, [0].map r = ps.map some ∧
        ∀ s' ∈ statesOf net₁ 1, observed net₁ df 1 [0] s' ps ≤ observed net₁ df 1 [0] s ps ∧
          (s' < s → observed net₁ df 1 [0] s' ps < observed net₁ df 1 [0] s ps)) df.rows out.rows :=
  predict_most_frequent int_injective isStructure reach₁ nonempty₁ (h₀ := [df]) (ref₀ := 0) (train := df) rfl (by simp) fit_eq
    (by rw [nodes₁]; decide) (by refine ⟨by simp, fun u => ?_⟩; simp [E]) (h := [df]) (ref := 0) (df := df) rfl (by decide)
    (by decide +kernel) _ _

/-- The same data in another order, with a further column and a row with a null. -/
def dfOther : DF ℕ ℚ := ⟨[1, 8, 0], [row (some 7) (some 7), row none (some 7), row (some 5) (some 5), row (some 7) (some 7)]⟩

/-- C107 applies to these data. -/
example : ∃ net₂' h₂', fitCpds int net₁ [dfOther] 0 {} = (net₂', h₂', .ok ()) ∧ cpds net₂' = cpds net₂ :=
  fit_depends_on_counts int_injective isStructure (by decide) reach₁ reach₁ (fun _ _ => rfl) nonempty₁ (h₁ := [df]) (ref₁ := 0) (df₁ := df)
    (df₂ := dfOther) rfl rfl fit_eq (by rw [nodes₁]; decide) (by decide +kernel)

/-- The data twice. -/
def dfTwice : DF ℕ ℚ := ⟨[0, 1], df.rows ++ df.rows⟩

/-- C107 applies to these data. -/
example : ∃ net₂' h₂', fitCpds int net₁ [dfTwice] 0 {} = (net₂', h₂', .ok ()) ∧ cpds net₂' = cpds net₂ :=
  fit_depends_on_frequencies int_injective isStructure (by decide) reach₁ reach₁ (fun _ _ => rfl) nonempty₁ (h₁ := [df]) (ref₁ := 0) (df₁ := df)
    (df₂ := dfTwice) rfl rfl rfl fit_eq (by rw [nodes₁]; decide) (k₁ := 2) (k₂ := 1) (by decide) (by decide) (by decide +kernel)

end

end Verif.Network
