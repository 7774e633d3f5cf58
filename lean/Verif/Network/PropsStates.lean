import Verif.Network.PropsFit
import Verif.Network.Witness
import Mathlib.Data.List.Dedup

/-!
# Learning the states from data: `fit_node_states` and `fit_node_states_and_cpds`
-/

namespace Verif.Network

open Function

section
variable {V S K : Type} [LinearOrder V] [LinearOrder S] [Field K]

/-- `set(column.unique())`: every value of the column once, in any order. -/
def ListsValues (uniq : List (Option S) → List (Option S)) : Prop := ∀ l, (uniq l).Nodup ∧ ∀ x, x ∈ uniq l ↔ x ∈ l

/-- The different values of a column. -/
def valuesOf (df : DF V S) (c : V) : List (Option S) := (df.rows.map fun r => r c).dedup

theorem uniq_perm {uniq : List (Option S) → List (Option S)} (hu : ListsValues uniq) (df : DF V S) (c : V) :
    (uniq (df.rows.map fun r => r c)).Perm (valuesOf df c) := by
  unfold valuesOf
  rw [List.perm_ext_iff_of_nodup (hu _).1 (List.nodup_dedup _)]
  intro x
  rw [(hu _).2, List.mem_dedup]

/-- **C08**, **C95**: `fit_node_states` raises `KeyError` if a node has no column, else `ValueError` if any column, also one that is
not a node, has a null; in both cases the network is as it was.  Otherwise the states of every column are the values in its rows, the
code of a state is the number of different smaller values, and nothing else changes. -/
theorem fit_node_states_correct {uniq : List (Option S) → List (Option S)} (hu : ListsValues uniq) (net : Net V S K) (df : DF V S)
    (hc : df.cols.Nodup) :
    (∃ v ∈ net.nodes, v ∉ df.cols) ∧ fitNodeStates uniq net df = (net, .error .keyError) ∨
    (∀ v ∈ net.nodes, v ∈ df.cols) ∧ (∃ c ∈ df.cols, ∃ r ∈ df.rows, r c = none) ∧
      fitNodeStates uniq net df = (net, .error .valueError) ∨
    (∀ v ∈ net.nodes, v ∈ df.cols) ∧ (∀ c ∈ df.cols, ∀ r ∈ df.rows, r c ≠ none) ∧
      ∃ net' states, fitNodeStates uniq net df = (net', .ok ()) ∧ net'.states = some states ∧
        net'.nodes = net.nodes ∧ net'.edges = net.edges ∧ net'.cpds = net.cpds ∧
        states.map Prod.fst = df.cols ∧
        ∀ c ∈ df.cols, ∃ code : List (S × ℕ), states.lookup c = some code ∧
          (∀ s, s ∈ statesOf net' c ↔ ∃ r ∈ df.rows, r c = some s) ∧
          (∀ s, code.lookup s = if ∃ r ∈ df.rows, r c = some s
            then some ((valuesOf df c).countP fun t => t.any (· < s)) else none) ∧
          code.map Prod.snd = List.range (valuesOf df c).length := by
  unfold fitNodeStates
  have hkeys : ((df.cols.map fun c => (c, uniq (df.rows.map fun r => r c))).map Prod.fst) = df.cols := by
    rw [List.map_map]; exact List.map_id _
  have hnull : (∃ q ∈ df.cols.map fun c => (c, uniq (df.rows.map fun r => r c)), none ∈ q.2) ↔
      ∃ c ∈ df.cols, ∃ r ∈ df.rows, r c = none := by
    constructor
    · rintro ⟨q, hq, hn⟩
      obtain ⟨c, hc, rfl⟩ := List.mem_map.1 hq
      obtain ⟨r, hr, h⟩ := List.mem_map.1 (((hu _).2 _).1 hn)
      exact ⟨c, hc, r, hr, h⟩
    · rintro ⟨c, hc, r, hr, h⟩
      exact ⟨_, List.mem_map_of_mem hc, ((hu _).2 _).2 (List.mem_map.2 ⟨r, hr, h⟩)⟩
  rcases set_node_states_correct net (df.cols.map fun c => (c, uniq (df.rows.map fun r => r c))) (by rw [hkeys]; exact hc)
    (by
      intro q hq
      obtain ⟨c, -, rfl⟩ := List.mem_map.1 hq
      exact (hu _).1) with ⟨h1, h2⟩ | ⟨h1, h2, h3⟩ | ⟨h1, h2, net', states, h3, h4, h5, h6, h7, h8, h9⟩
  · rw [hkeys] at h1
    exact Or.inl ⟨h1, h2⟩
  · rw [hkeys] at h1
    exact Or.inr (Or.inl ⟨h1, hnull.1 h2, h3⟩)
  · rw [hkeys] at h1 h8
    refine Or.inr (Or.inr ⟨h1, ?_, net', states, h3, h4, h5, h6, h7, h8, ?_⟩)
    · intro c hc r hr h
      obtain ⟨q, hq, hn⟩ := hnull.2 ⟨c, hc, r, hr, h⟩
      exact h2 q hq hn
    · intro c hcm
      obtain ⟨code, k1, k2, k3, k4⟩ := h9 c _ (List.mem_map_of_mem (f := fun c => (c, uniq (df.rows.map fun r => r c))) hcm)
      have hmem : ∀ s, some s ∈ uniq (df.rows.map fun r => r c) ↔ ∃ r ∈ df.rows, r c = some s := by
        intro s
        rw [(hu _).2, List.mem_map]
      refine ⟨code, k1, fun s => (k2 s).trans (hmem s), ?_, ?_⟩
      · intro s
        rw [k3 s, (uniq_perm hu df c).countP_eq]
        by_cases h : ∃ r ∈ df.rows, r c = some s
        · rw [if_pos h, if_pos ((hmem s).2 h)]
        · rw [if_neg h, if_neg (fun h' => h ((hmem s).1 h'))]
      · rw [k4, (uniq_perm hu df c).length_eq]

/-- The number of rows in which `v` has state `s` and the parents have states `ps`. -/
def rowsWith (df : DF V S) (v : V) (parents : List V) (s : S) (ps : List S) : ℕ :=
  df.rows.countP fun r => r v = some s ∧ parents.map r = ps.map some

/-- What `fit_node_states_and_cpds` does, in terms of its two parts. -/
theorem fitNodeStatesAndCpds_reach {int : ℕ → S} {uniq : List (Option S) → List (Option S)} (hu : ListsValues uniq) {ns : List V}
    {E : List (V × V)} {net net' : Net V S K} (hr : Reach int ns E net) {h h' : Heap V S} {ref : ℕ} {a : FitArgs K} {r}
    (hcols : ∀ df, h[ref]? = some df → df.cols.Nodup)
    (hf : fitNodeStatesAndCpds int uniq net h ref a = (net', h', r)) : Reach int ns E net' := by
  unfold fitNodeStatesAndCpds at hf
  cases hdf : h[ref]? with
  | none => rw [hdf] at hf; cases hf; exact hr
  | some df =>
    rw [hdf] at hf
    dsimp only at hf
    have hstep : ∀ net₁ r₁, fitNodeStates uniq net df = (net₁, r₁) → Reach int ns E net₁ := by
      intro net₁ r₁ h1
      refine Reach.states hr ?_ ?_ h1
      · rw [List.map_map]
        have := hcols df hdf
        simpa [comp_def] using this
      · intro q hq
        obtain ⟨c, -, rfl⟩ := List.mem_map.1 hq
        exact (hu _).1
    cases hs : fitNodeStates uniq net df with
    | mk net₁ r₁ =>
      rw [hs] at hf
      cases r₁ with
      | error e => cases hf; exact hstep _ _ hs
      | ok u => exact Reach.fit (hstep _ _ hs) hf

/-- **C95**: `fit_node_states_and_cpds` on data with at least one row.

* If a node has no column or some column has a null, it raises and the network is as it was.
* Otherwise the states of the nodes become the values in the data.  If the method or the prior is not accepted, it then raises, and the
  CPDs are still the old ones.
* Otherwise it succeeds: the rows of the table of a node are its states, the columns are the combinations of values of its parents, and
  every entry is the estimate, by the requested method, from the numbers of rows of the data. -/
theorem fit_node_states_and_cpds_correct {int : ℕ → S} (hint : Injective int) {uniq : List (Option S) → List (Option S)}
    (hu : ListsValues uniq) {ns : List V} {E : List (V × V)} (hE : IsStructure ns E) {net : Net V S K} (hr : Reach int ns E net)
    {h : Heap V S} {ref : ℕ} {df : DF V S} (hdf : h[ref]? = some df) (hc : df.cols.Nodup) (hrows : df.rows ≠ []) (a : FitArgs K) :
    ∃ net' h' res, fitNodeStatesAndCpds int uniq net h ref a = (net', h', res) ∧ h <+: h' ∧
    ((∃ v ∈ net.nodes, v ∉ df.cols) ∧ net' = net ∧ res = .error .keyError ∨
     (∀ v ∈ net.nodes, v ∈ df.cols) ∧ (∃ c ∈ df.cols, ∃ r ∈ df.rows, r c = none) ∧ net' = net ∧ res = .error .valueError ∨
     (∀ v ∈ net.nodes, v ∈ df.cols) ∧ (∀ c ∈ df.cols, ∀ r ∈ df.rows, r c ≠ none) ∧
      net'.nodes = net.nodes ∧ net'.edges = net.edges ∧
      (∀ c ∈ df.cols, ∀ s, s ∈ statesOf net' c ↔ ∃ r ∈ df.rows, r c = some s) ∧
      (¬ GoodArgs a ∧ (∃ e, res = .error e) ∧ net'.cpds = net.cpds ∨
       GoodArgs a ∧ res = .ok () ∧ ∃ tables, cpds net' = .ok tables ∧ tables.map Prod.fst = net.nodes ∧
        ∀ v t, (v, t) ∈ tables →
          t.index.Pairwise (· < ·) ∧ (∀ s, s ∈ t.index ↔ ∃ r ∈ df.rows, r v = some s) ∧
          IsParentList E v t.parents ∧ t.cols.Nodup ∧
          (∀ ps, ps ∈ t.cols ↔ List.Forall₂ (fun s p => ∃ r ∈ df.rows, r p = some s) ps t.parents) ∧
          ∀ s ∈ t.index, ∀ ps ∈ t.cols, t.entry s ps = some (estimate a t.index
            (t.parents.map fun p => (valuesOf df p).length).prod (fun s => rowsWith df v t.parents s ps) s))) := by
  have hcols : ∀ d, h[ref]? = some d → d.cols.Nodup := by
    intro d hd
    rw [hdf] at hd
    cases hd
    exact hc
  rcases hres : fitNodeStatesAndCpds int uniq net h ref a with ⟨net', h', res⟩
  refine ⟨net', h', res, rfl, ?_⟩
  have hf := hres
  unfold fitNodeStatesAndCpds at hf
  rw [hdf] at hf
  dsimp only at hf
  rcases fit_node_states_correct hu net df hc with ⟨h1, h2⟩ | ⟨h1, h2, h3⟩ | ⟨h1, h2, net₁, states, h3, h4, h5, h6, h7, h8, h9⟩
  · rw [h2] at hf
    cases hf
    exact ⟨List.prefix_refl _, Or.inl ⟨h1, rfl, rfl⟩⟩
  · rw [h3] at hf
    cases hf
    exact ⟨List.prefix_refl _, Or.inr (Or.inl ⟨h1, h2, rfl, rfl⟩)⟩
  · rw [h3] at hf
    dsimp only at hf
    have hr₁ : Reach int ns E net₁ := by
      refine Reach.states hr ?_ ?_ h3
      · rw [List.map_map]
        simpa [comp_def] using hc
      · intro q hq
        obtain ⟨c, -, rfl⟩ := List.mem_map.1 hq
        exact (hu _).1
    have hst : ∀ c ∈ df.cols, ∀ s, s ∈ statesOf net₁ c ↔ ∃ r ∈ df.rows, r c = some s := by
      intro c hcm
      obtain ⟨-, -, k, -⟩ := h9 c hcm
      exact k
    have hok := fit_ok_iff (int := int) hE hr₁ hdf a
    rw [hf] at hok
    have hpre : h <+: h' := fit_keeps_frames hf
    refine ⟨hpre, Or.inr (Or.inr ⟨h1, h2, ?_⟩)⟩
    by_cases ha : GoodArgs a
    · have hres' : res = .ok () := hok.2 ⟨by rw [h4]; simp, by rw [h5]; exact h1, ha⟩
      subst hres'
      have hne : ∀ v ∈ net₁.nodes, statesOf net₁ v ≠ [] := by
        intro v hv h0
        obtain ⟨r, hr'⟩ := List.exists_mem_of_ne_nil _ hrows
        have hv' := h1 v (h5 ▸ hv)
        cases hx : r v with
        | none => exact h2 v hv' r hr' hx
        | some s =>
          have := (hst v hv' s).2 ⟨r, hr', hx⟩
          rw [h0] at this
          simp at this
      obtain ⟨i1, i2, i3, tables, i4, i5, i6⟩ := fit_cpds_correct hint hE hr₁ hne hdf hf
      refine ⟨by rw [i1, h5], by rw [i2]; exact (hr.wf hE).edges.symm, fun c hcm s => by rw [i3]; exact hst c hcm s,
        Or.inr ⟨ha, rfl, tables, i4, by rw [i5, h5], ?_⟩⟩
      intro v t ht
      obtain ⟨j1, j2, j3, j4, j5⟩ := i6 v t ht
      have hvn : v ∈ net₁.nodes := by
        rw [← i5]
        exact List.mem_map_of_mem (f := Prod.fst) ht
      have hvc := h1 v (h5 ▸ hvn)
      have hw := hr₁.wf hE
      have hpar : ∀ p ∈ t.parents, p ∈ df.cols := by
        intro p hp
        apply h1
        rw [← h5, hw.nodes, mem_nodesOfEdges]
        exact ⟨(p, v), (j2.2 p).1 hp, Or.inl rfl⟩
      have hcfg : ∀ ps, IsConfig net₁ t.parents ps ↔ List.Forall₂ (fun s p => ∃ r ∈ df.rows, r p = some s) ps t.parents := by
        intro ps
        unfold IsConfig
        generalize t.parents = par at hpar
        constructor
        · intro hq
          induction hq with
          | nil => exact .nil
          | @cons s p ps par a1 a2 ih =>
            exact .cons ((hst _ (hpar _ (by simp)) _).1 a1) (ih fun q hq' => hpar q (List.mem_cons_of_mem _ hq'))
        · intro hq
          induction hq with
          | nil => exact .nil
          | @cons s p ps par a1 a2 ih =>
            exact .cons ((hst _ (hpar _ (by simp)) _).2 a1) (ih fun q hq' => hpar q (List.mem_cons_of_mem _ hq'))
      have hknown : ∀ r ∈ df.rows, Known net₁ r := by
        intro r hr' u hu'
        have huc := h1 u (h5 ▸ hu')
        cases hx : r u with
        | none => exact absurd hx (h2 u huc r hr')
        | some s => exact ⟨s, (hst u huc s).2 ⟨r, hr', hx⟩, rfl⟩
      have hobs : ∀ s ps, observed net₁ df v t.parents s ps = rowsWith df v t.parents s ps := by
        intro s ps
        unfold observed rowsWith
        apply List.countP_congr
        intro r hr'
        simp only [decide_eq_true_eq]
        exact ⟨fun q => q.2, fun q => ⟨hknown r hr', q⟩⟩
      have hcard : ∀ p ∈ df.cols, (statesOf net₁ p).length = (valuesOf df p).length := by
        intro p hp
        obtain ⟨code, k1, -, -, k4⟩ := h9 p hp
        have : statesOf net₁ p = code.map Prod.fst := by
          simp only [statesOf, h4, k1, Option.getD_some]
        rw [this, List.length_map, ← List.length_map (f := Prod.snd) (as := code), k4, List.length_range]
      have hinc : (statesOf net₁ v).Pairwise (· < ·) := by
        rw [statesOf_eq h4]
        exact keysOf_sorted (hw.encWF h4) v
      refine ⟨by rw [j1]; exact hinc, fun s => by rw [j1]; exact hst v hvc s, j2, j3, fun ps => (j4 ps).trans (hcfg ps), ?_⟩
      intro s hs ps hps
      rw [j5 s (j1 ▸ hs) ps ((j4 ps).1 hps), j1]
      congr 2
      · congr 1
        apply List.map_congr_left
        intro p hp
        exact hcard p (hpar p hp)
      · funext s'
        exact hobs s' ps
    · have hne : res ≠ .ok () := fun h0 => ha (hok.1 h0).2.2
      cases res with
      | ok u => exact absurd rfl hne
      | error e =>
        have := fit_error_atomic hf
        subst this
        exact ⟨h5, h6, hst, Or.inl ⟨ha, ⟨e, rfl⟩, h7⟩⟩

end

namespace Witness

/-- The distinct values of a list, in order of last appearance. -/
theorem dedup_lists : ListsValues (S := ℚ) List.dedup := fun l => ⟨List.nodup_dedup l, fun _ => List.mem_dedup⟩

/-- C95 applies to the freshly constructed network. -/
example := fit_node_states_and_cpds_correct int_injective dedup_lists isStructure (.init init_ok : Reach int ns E net₀) (h := [df])
  (ref := 0) (df := df) rfl (by decide) (by decide) ({} : FitArgs ℚ)

/-- The arguments reach the estimator: with the prior K2 one observation of state 5 in three rows gives `(1 + 1) / (3 + 2)`. -/
theorem fit_both_k2 :
    (cpds (fitNodeStatesAndCpds int List.dedup net₀ [df] 0 { method := "BayesianEstimator", prior := some "K2" }).1).map
      (fun l => l.map fun q => (q.2.index, q.2.rows)) =
    .ok [([5, 7], [[2 / 5], [3 / 5]]), ([5, 7], [[2 / 3, 1 / 4], [1 / 3, 3 / 4]])] := by decide +kernel

/-- Other data: states 1 and 2. -/
def dfOther : DF ℕ ℚ := ⟨[0, 1], [row (some 1) (some 1), row (some 2) (some 2)]⟩

/-- **C95**, the exception for an unknown method comes after the states were replaced: the tables estimated from the first data are now
labelled with the states of the second. -/
theorem failed_fit_relabels :
    (fitNodeStatesAndCpds int List.dedup net₂ [df, dfOther] 1 { method := "unknown" }).2.2 = .error .valueError ∧
    (cpds net₂).map (fun l => l.map fun q => (q.2.index, q.2.rows)) =
      .ok [([5, 7], [[1 / 3], [2 / 3]]), ([5, 7], [[1, 0], [0, 1]])] ∧
    (cpds (fitNodeStatesAndCpds int List.dedup net₂ [df, dfOther] 1 { method := "unknown" }).1).map
      (fun l => l.map fun q => (q.2.index, q.2.rows)) =
      .ok [([1, 2], [[1 / 3], [2 / 3]]), ([1, 2], [[1, 0], [0, 1]])] := by decide +kernel

end Witness

end Verif.Network
