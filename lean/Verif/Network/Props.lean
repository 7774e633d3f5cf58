import Verif.Network.Tables
import Mathlib.Algebra.Order.Field.Basic
import Mathlib.Algebra.Order.BigOperators.Group.List
import Mathlib.Algebra.BigOperators.Ring.List
import Mathlib.Tactic.FieldSimp
import Mathlib.Tactic.Ring

/-!
# Properties of `BayesianNetwork`: construction, states, fitting
-/

namespace Verif.Network

open Verif.BBN (lookup_mem lookup_of_mem_nodup lookup_isSome_iff)
open Function

section
variable {V S K : Type} [LinearOrder V] [LinearOrder S]

/-! ### C07 -/

/-- **C07**: the constructor succeeds iff the structure is connected and acyclic, and reports a
disconnected structure as such, even if it is cyclic too. -/
theorem init_accepts_iff {ns : List V} {E : List (V × V)} (hE : IsStructure ns E) :
    ((∃ net : Net V S K, init ns E = .ok net) ↔
      (∀ u ∈ ns, ∀ v ∈ ns, Graph.WConn E u v) ∧ Graph.Acyclic E) ∧
    ((init ns E : Except Err (Net V S K)) = .error .disconnected ↔
      ¬ ∀ u ∈ ns, ∀ v ∈ ns, Graph.WConn E u v) ∧
    ((init ns E : Except Err (Net V S K)) = .error .cyclic ↔
      (∀ u ∈ ns, ∀ v ∈ ns, Graph.WConn E u v) ∧ ¬ Graph.Acyclic E) := by
  rw [← Graph.weakComponents_length_le_one hE.edges_mem, ← Graph.isDag_iff ns E hE.edges_mem]
  unfold init
  by_cases h1 : 1 < (Graph.weakComponents ns E).length
  · simp [h1]
  · by_cases h2 : Graph.isDag ns E = true
    · simp [h1, h2]; omega
    · simp [h1, h2]; omega

/-- **C07**: edges of the network are those of the structure; nodes too, unless the structure is a
single node.  Partial: for a single isolated node the network has no nodes, see
`init_single_node`. -/
theorem init_nodes_partial {ns : List V} {E : List (V × V)} (hE : IsStructure ns E)
    {net : Net V S K} (h : init ns E = .ok net) :
    net.edges = E ∧ net.nodes.Nodup ∧ (∀ v ∈ net.nodes, v ∈ ns) ∧
      (ns.length ≠ 1 → ∀ v, v ∈ net.nodes ↔ v ∈ ns) := by
  have hc := ((init_accepts_iff (S := S) (K := K) hE).1.1 ⟨net, h⟩).1
  have : net = ⟨nodesOfEdges E, E, none, []⟩ := by
    unfold init at h
    split at h
    · exact absurd h (by simp)
    · split at h
      · exact absurd h (by simp)
      · cases h; rfl
  subst this
  have hsub : ∀ v ∈ nodesOfEdges E, v ∈ ns := by
    intro v hv
    obtain ⟨e, he, rfl | rfl⟩ := mem_nodesOfEdges.1 hv
    · exact (hE.edges_mem e he).1
    · exact (hE.edges_mem e he).2
  refine ⟨rfl, nodesOfEdges_nodup E, hsub, fun h1 v => ⟨hsub v, fun hv => ?_⟩⟩
  obtain ⟨u, hu, huv⟩ : ∃ u ∈ ns, u ≠ v := by
    by_contra hcon
    push Not at hcon
    have : ns = [v] := by
      have hperm : ns.Perm [v] := by
        rw [List.perm_ext_iff_of_nodup hE.nodes_nodup (by simp)]
        intro a
        simp only [List.mem_singleton]
        exact ⟨hcon a, fun h => h ▸ hv⟩
      exact List.perm_singleton.1 hperm
    exact h1 (by simp [this])
  have hw := hc u hu v hv
  cases hw with
  | refl => exact absurd rfl huv
  | tail _ hl =>
    rcases hl with hl | hl
    · exact mem_nodesOfEdges.2 ⟨_, hl, Or.inr rfl⟩
    · exact mem_nodesOfEdges.2 ⟨_, hl, Or.inl rfl⟩

/-- A structure with a single node and no edge is accepted, and its node is lost. -/
theorem init_single_node (v : V) :
    init [v] [] = .ok (⟨[], [], none, []⟩ : Net V S K) := by
  have h := (init_accepts_iff (S := S) (K := K) (ns := [v]) (E := [])
    ⟨by simp, by simp, by simp⟩).1.2
  obtain ⟨net, hn⟩ := h ⟨by
    intro u hu w hw
    simp only [List.mem_singleton] at hu hw
    rw [hu, hw]
    exact Relation.ReflTransGen.refl, by
    intro w hw
    cases hw with
    | single h => simp [Graph.EdgeRel] at h
    | tail _ h => simp [Graph.EdgeRel] at h⟩
  have h' := hn
  unfold init at hn
  split at hn
  · exact absurd hn (by simp)
  · split at hn
    · exact absurd hn (by simp)
    · cases hn
      exact h'

/-! ### C08 -/

/-- **C08**: assigning `node_states` either raises and leaves the network as it was, or gives each
node the states listed for it, where the code of a state is the number of smaller states: the codes
are a bijection to `0..k-1`, increasing, and independent of the order of the listing. -/
theorem set_node_states_correct [Zero K] [One K] [Add K] [Div K] [NatCast K] (net : Net V S K) (dict : List (V × List (Option S)))
    (hk : (dict.map Prod.fst).Nodup) (hq : ∀ q ∈ dict, q.2.Nodup) :
    (∃ v ∈ net.nodes, v ∉ dict.map Prod.fst) ∧
      setNodeStates net dict = (net, .error .keyError) ∨
    (∀ v ∈ net.nodes, v ∈ dict.map Prod.fst) ∧ (∃ q ∈ dict, none ∈ q.2) ∧
      setNodeStates net dict = (net, .error .valueError) ∨
    (∀ v ∈ net.nodes, v ∈ dict.map Prod.fst) ∧ (∀ q ∈ dict, none ∉ q.2) ∧
      ∃ net' states, setNodeStates net dict = (net', .ok ()) ∧ net'.states = some states ∧
        net'.nodes = net.nodes ∧ net'.edges = net.edges ∧ net'.cpds = net.cpds ∧
        states.map Prod.fst = dict.map Prod.fst ∧
        ∀ v l, (v, l) ∈ dict → ∃ code : List (S × ℕ), states.lookup v = some code ∧
          (∀ s, s ∈ statesOf net' v ↔ some s ∈ l) ∧
          (∀ s, code.lookup s = if some s ∈ l
            then some (l.countP fun t => t.any (· < s)) else none) ∧
          code.map Prod.snd = List.range l.length := by
  rcases setNodeStates_cases net dict with ⟨h, h1⟩ | ⟨h, h1, h2⟩ | ⟨h, h1, h2⟩
  · exact Or.inl ⟨h1, h⟩
  · exact Or.inr (Or.inl ⟨h1, h2, h⟩)
  · refine Or.inr (Or.inr ⟨h1, h2, _, _, h, rfl, rfl, rfl, rfl, by simp [comp_def], ?_⟩)
    intro v l hv
    have hlook : (dict.map fun q => (q.1, encoding (q.2.filterMap id))).lookup v =
        some (encoding (l.filterMap id)) := by
      apply lookup_of_mem_nodup
      · simpa [comp_def] using hk
      · exact List.mem_map.2 ⟨(v, l), hv, rfl⟩
    have hmem : ∀ s, s ∈ l.filterMap id ↔ some s ∈ l := by simp
    have hnd : (l.filterMap id).Nodup := filterMap_id_nodup (hq _ hv)
    refine ⟨_, hlook, ?_, ?_, ?_⟩
    · intro s
      simp only [statesOf, hlook, Option.getD_some]
      rw [mem_encoding_keys, hmem]
    · intro s
      by_cases hs : some s ∈ l
      · rw [if_pos hs, encoding_code hnd ((hmem s).2 hs), ← List.countP_eq_length_filter,
          List.countP_filterMap]
        congr 1
        apply List.countP_congr
        intro t _
        cases t <;> simp
      · rw [if_neg hs, encoding_lookup, if_neg (by rwa [hmem])]
    · have hlen : (l.filterMap id).length = l.length := by
        rw [List.filterMap_length_eq_length]
        intro a ha
        cases a with
        | none => exact absurd ha (h2 _ hv)
        | some a => rfl
      rw [← hlen]
      exact encoding_codes hnd

end

section
variable {V S K : Type} [LinearOrder V] [LinearOrder S] [Zero K] [One K] [Add K] [Div K] [NatCast K]

/-! ### Tables given by a function -/

/-- A table with all its entries. -/
def mkTable (index : List S) (parents : List V) (cols : List (List S)) (P : S → List S → K) :
    Table V S K := ⟨index, parents, cols, index.map fun s => cols.map (P s)⟩

theorem lookup_zip_map {α β : Type} [BEq α] [LawfulBEq α] [DecidableEq α] (l : List α) (f : α → β)
    (a : α) : (l.zip (l.map f)).lookup a = if a ∈ l then some (f a) else none := by
  induction l with
  | nil => rfl
  | cons b l ih =>
    rw [List.map_cons, List.zip_cons_cons, List.lookup_cons, ih]
    by_cases h : a = b
    · subst h; simp
    · have : (a == b) = false := by simpa using h
      simp [h, this]

theorem mkTable_entry {index : List S} {parents : List V} {cols : List (List S)}
    {P : S → List S → K} (s : S) (ps : List S) :
    (mkTable index parents cols P).entry s ps =
      if s ∈ index ∧ ps ∈ cols then some (P s ps) else none := by
  simp only [Table.entry, mkTable, lookup_zip_map]
  by_cases hs : s ∈ index
  · simp [hs, lookup_zip_map]
  · simp [hs]

theorem mkTable_column {index : List S} {parents : List V} {cols : List (List S)}
    {P : S → List S → K} {ps : List S} (hps : ps ∈ cols) :
    column (mkTable index parents cols P) (ps.map some) = .ok (index.map fun s => (s, P s ps)) := by
  have hmem : ps.map some ∈ cols.map (·.map some) := List.mem_map_of_mem hps
  obtain ⟨j, hj⟩ : ∃ j, (cols.map (·.map some)).idxOf? (ps.map some) = some j := by
    rw [← Option.isSome_iff_exists, List.isSome_idxOf?]
    exact hmem
  have hlt := List.idxOf?_eq_some_iff.1 hj
  obtain ⟨h1, h2, -⟩ := hlt
  have hjl : j < cols.length := by simpa using h1
  have hcj : cols[j] = ps := by
    rw [List.getElem_map] at h2
    exact (List.map_injective_iff.2 (Option.some_injective S)) (by simpa using h2)
  simp only [column, mkTable, hj, List.map_map]
  congr 1
  apply List.ext_getElem
  · simp
  · intro i h1 h2
    simp [hjl, hcj]

theorem mkTable_column_error {index : List S} {parents : List V} {cols : List (List S)}
    {P : S → List S → K} {ps : List (Option S)} (hps : ∀ t ∈ cols, t.map some ≠ ps) :
    column (mkTable index parents cols P) ps = .error .keyError := by
  have : (cols.map (·.map some)).idxOf? ps = none := by
    rw [List.idxOf?_eq_none_iff]
    simpa using hps
  simp [column, mkTable, this]

/-! ### Fitting -/

/-- What a call of `fit_cpds` does, when the states are fitted and the frame exists. -/
theorem fitCpds_eq {int : ℕ → S} {ns : List V} {E : List (V × V)} {net : Net V S K}
    (hw : net.WF ns E) {states : List (V × List (S × ℕ))} (hst : net.states = some states)
    {h : Heap V S} {ref : ℕ} {df : DF V S} (hdf : h[ref]? = some df) (a : FitArgs K) :
    if ∀ v ∈ net.nodes, v ∈ df.cols then
      fitCpds int net h ref a = (match pseudoOf (stateNames int states) a with
        | .error e => (net, h ++ [df, ⟨net.nodes, df.rows.map (encRow int states net.nodes)⟩], .error e)
        | .ok ps => (pgmFit net ps (stateNames int states)
            ⟨net.nodes, df.rows.map (encRow int states net.nodes)⟩,
            h ++ [df, ⟨net.nodes, df.rows.map (encRow int states net.nodes)⟩], .ok ()))
    else fitCpds int net h ref a = (net, h ++ [df], .error .keyError) := by
  have hnd : net.nodes.Nodup := by rw [hw.nodes]; exact nodesOfEdges_nodup E
  have hall : (net.nodes.all fun v => decide (v ∈ df.cols)) = true ↔ ∀ v ∈ net.nodes, v ∈ df.cols := by
    simp
  unfold fitCpds
  simp only [hst, hdf, hall]
  by_cases hc : ∀ v ∈ net.nodes, v ∈ df.cols
  · simp only [if_pos hc]
    have hget : (h ++ [df] ++ [(⟨net.nodes, df.rows⟩ : DF V S)])[(h ++ [df]).length]? =
        some ⟨net.nodes, df.rows⟩ := by
      rw [List.getElem?_append_right (le_refl _)]
      simp
    rw [stateToIndex_ok hget hnd (fun _ h => h) (fun v hv => hw.keys states hst v hv)]
    have hset : (h ++ [df] ++ [(⟨net.nodes, df.rows⟩ : DF V S)]).set (h ++ [df]).length
        ⟨net.nodes, df.rows.map (encRow int states net.nodes)⟩ =
        h ++ [df, ⟨net.nodes, df.rows.map (encRow int states net.nodes)⟩] := by
      rw [List.set_append_right _ _ (le_refl _)]
      simp
    simp only
    rw [hset]
    have hget' : (h ++ [df, (⟨net.nodes, df.rows.map (encRow int states net.nodes)⟩ : DF V S)])[
        (h ++ [df]).length]? = some ⟨net.nodes, df.rows.map (encRow int states net.nodes)⟩ := by
      rw [List.length_append, List.getElem?_append_right (by omega)]
      simp
    rw [hget']
    cases pseudoOf (stateNames int states) a <;> rfl
  · simp only [if_neg hc]

theorem fitCpds_ok {int : ℕ → S} {ns : List V} {E : List (V × V)} {net net' : Net V S K}
    (hw : net.WF ns E) {h h' : Heap V S} {ref : ℕ} {a : FitArgs K}
    (hf : fitCpds int net h ref a = (net', h', .ok ())) :
    ∃ states df ps, net.states = some states ∧ h[ref]? = some df ∧
      (∀ v ∈ net.nodes, v ∈ df.cols) ∧ pseudoOf (stateNames int states) a = .ok ps ∧
      net' = pgmFit net ps (stateNames int states)
        ⟨net.nodes, df.rows.map (encRow int states net.nodes)⟩ := by
  cases hst : net.states with
  | none => simp [fitCpds, hst] at hf
  | some states =>
    cases hdf : h[ref]? with
    | none => simp [fitCpds, hst, hdf] at hf
    | some df =>
      have := fitCpds_eq (int := int) hw hst hdf a
      split at this
      · rename_i hc
        rw [hf] at this
        split at this
        · simp at this
        · rename_i ps hps
          injection this with h1 _
          exact ⟨_, _, _, rfl, rfl, hc, hps, h1⟩
      · rw [hf] at this
        simp at this

/-- The table the network reports for a node after fitting. -/
def fittedTable (net : Net V S K) (df : DF V S) (ps : V → List V → Pseudo K) (v : V) :
    Table V S K :=
  mkTable (statesOf net v) (sortedParents net.edges v)
    (product ((sortedParents net.edges v).map (statesOf net)))
    fun s t => probOf (ps v (sortedParents net.edges v)) (statesOf net v)
      (fun s => observed net df v (sortedParents net.edges v) s t) s

theorem fitCpds_cpds {int : ℕ → S} (hint : Injective int) {ns : List V} {E : List (V × V)}
    (hE : IsStructure ns E) {net : Net V S K} (hw : net.WF ns E)
    (hne : ∀ v ∈ net.nodes, statesOf net v ≠ []) {states : List (V × List (S × ℕ))}
    (hst : net.states = some states) (df : DF V S) (ps : V → List V → Pseudo K) :
    cpds (pgmFit net ps (stateNames int states)
        ⟨net.nodes, df.rows.map (encRow int states net.nodes)⟩) =
      .ok (net.nodes.map fun v => (v, fittedTable net df ps v)) := by
  have hnd : net.nodes.Nodup := by rw [hw.nodes]; exact nodesOfEdges_nodup E
  have hstates : (pgmFit net ps (stateNames int states)
        ⟨net.nodes, df.rows.map (encRow int states net.nodes)⟩).states = some states := hst
  rw [cpds, hstates, pgmFit_cpds hnd hw.cpds]
  simp only
  have hkeys : keysOf states = statesOf net := by
    funext v
    rw [statesOf_eq hst]
  rw [List.mapM_map]
  apply mapM_ok
  intro v hv
  simp only [comp]
  rw [cpdTable_estimate hint hst (hw.encWF hst) (hw.edges ▸ hE.edges_nodup) (hw.keys states hst)
    (by
      intro e he
      rw [hw.nodes, mem_nodesOfEdges]
      exact ⟨e, hw.edges ▸ he, Or.inl rfl⟩) hne hv]
  rw [hkeys]
  rfl

theorem prod_length_stateNames {int : ℕ → S} {net : Net V S K} {states : List (V × List (S × ℕ))}
    (hst : net.states = some states) (he : EncWF states) (par : List V) :
    (par.map fun p => (stateNames int states p).length).prod =
      (par.map fun p => (statesOf net p).length).prod := by
  congr 1
  apply List.map_congr_left
  intro p _
  rw [stateNames_eq he, List.length_map, statesOf_eq hst]

/-- The tables after a successful `fit_cpds`, for numbers of any kind. -/
theorem fit_cpds_tables {int : ℕ → S} (hint : Injective int) {ns : List V} {E : List (V × V)}
    (hE : IsStructure ns E) {net net' : Net V S K} (hr : Reach int ns E net)
    (hne : ∀ v ∈ net.nodes, statesOf net v ≠ []) {h h' : Heap V S} {ref : ℕ} {df : DF V S}
    (hdf : h[ref]? = some df) {a : FitArgs K}
    (hf : fitCpds int net h ref a = (net', h', .ok ())) :
    net'.nodes = net.nodes ∧ net'.edges = E ∧ (∀ v, statesOf net' v = statesOf net v) ∧
    ∃ (names : V → List S) (ps : V → List V → Pseudo K), pseudoOf names a = .ok ps ∧ (∀ v, (names v).length = (statesOf net v).length) ∧
    ∃ tables, cpds net' = .ok tables ∧ tables.map Prod.fst = net.nodes ∧
      ∀ v t, (v, t) ∈ tables →
        t.index = statesOf net v ∧ IsParentList E v t.parents ∧ t.cols.Nodup ∧
        (∀ ps, ps ∈ t.cols ↔ IsConfig net t.parents ps) ∧
        ∀ s ∈ statesOf net v, ∀ c, IsConfig net t.parents c →
          t.entry s c = some (probOf (ps v t.parents) (statesOf net v)
            (fun s => observed net df v t.parents s c) s) := by
  have hw := hr.wf hE
  obtain ⟨states, df', ps, hst, hdf', -, hps, rfl⟩ := fitCpds_ok hw hf
  rw [hdf] at hdf'
  cases hdf'
  have he := hw.encWF hst
  refine ⟨rfl, hw.edges, fun v => rfl, _, ps, hps,
    fun v => by rw [stateNames_eq he, List.length_map, statesOf_eq hst],
    _, fitCpds_cpds hint hE hw hne hst df ps, by simp [comp_def], ?_⟩
  intro v t ht
  obtain ⟨u, hu, hut⟩ := List.mem_map.1 ht
  cases hut
  have hmem : ∀ t, t ∈ product ((sortedParents net.edges v).map (statesOf net)) ↔
      IsConfig net (sortedParents net.edges v) t := by
    intro t
    rw [mem_product, IsConfig, List.forall₂_map_right_iff]
  refine ⟨rfl, ?_, ?_, hmem, ?_⟩
  · have := sortedParents_spec (hw.edges ▸ hE.edges_nodup) v
    change IsParentList E v (sortedParents net.edges v)
    rwa [hw.edges] at this ⊢
  · apply product_nodup
    intro l hl
    obtain ⟨p, -, rfl⟩ := List.mem_map.1 hl
    rw [statesOf_eq hst]
    exact keysOf_nodup he p
  · intro s hs t ht
    rw [fittedTable, mkTable_entry, if_pos ⟨hs, (hmem t).2 ht⟩]
    rfl

end

section
variable {V S K : Type} [LinearOrder V] [LinearOrder S] [Field K]

theorem sum_map_add_const (l : List S) (f : S → ℕ) (a : K) :
    (l.map fun s => (f s : K) + a).sum = ((l.map f).sum : ℕ) + l.length * a := by
  induction l with
  | nil => simp
  | cons x l ih =>
    simp only [List.map_cons, List.sum_cons, ih, List.length_cons]
    push_cast
    ring

theorem sum_map_cast (l : List S) (f : S → ℕ) :
    (l.map fun s => (f s : K)).sum = ((l.map f).sum : ℕ) := by
  simpa using sum_map_add_const l f (0 : K)

theorem weightOf_add (a : K) (ks : List S) (N : S → ℕ) :
    weightOf (.add a) ks N = fun s => (N s : K) + a := rfl

theorem weightOf_fill (ks : List S) (N : S → ℕ) :
    (weightOf .fillEmpty ks N : S → K) =
      if ∀ t ∈ ks, N t = 0 then fun _ => 1 else fun s => (N s : K) := by
  funext s
  simp only [weightOf]
  split <;> rfl

theorem probOf_eq_estimate {names : V → List S} {a : FitArgs K} {ps : V → List V → Pseudo K}
    (hps : pseudoOf names a = .ok ps) (v : V) (par : List V) (ks : List S)
    (hk : ks.length = (names v).length) (N : S → ℕ) (s : S) :
    probOf (ps v par) ks N s =
      estimate a ks (par.map fun p => (names p).length).prod N s := by
  unfold pseudoOf at hps
  unfold estimate
  have hz : (∀ t ∈ ks, N t = 0) ↔ (ks.map N).sum = 0 := by
    rw [List.sum_eq_zero_iff]
    simp
  simp only
  split at hps
  · rename_i hm
    cases hps
    rw [if_pos hm]
    by_cases h : ∀ t ∈ ks, N t = 0
    · simp only [probOf, weightOf_fill, if_pos h, if_pos (hz.1 h)]
      simp
    · simp only [probOf, weightOf_fill, if_neg h, if_neg (fun h' => h (hz.2 h')), sum_map_cast]
  · rename_i hm
    rw [if_neg hm]
    split at hps
    · split at hps
      · rename_i hp
        cases hps
        rw [if_pos hp]
        simp only [probOf, weightOf_add, sum_map_add_const, mul_one]
      · rename_i hp
        rw [if_neg hp]
        split at hps
        · split at hps
          · exact absurd hps (by simp)
          · rename_i n hn
            cases hps
            simp only [probOf, weightOf_add, sum_map_add_const, hn, Option.getD_some, hk]
            push_cast
            rfl
        · exact absurd hps (by simp)
    · exact absurd hps (by simp)

/-! ### C10 -/

/-- **C10**: after a successful `fit_cpds`, `cpds` has one table per node; the rows of a table are
labelled with the states of the node, its columns with the combinations of states of its parents,
and each entry is the estimate from the numbers of observations in the given data. -/
theorem fit_cpds_correct {int : ℕ → S} (hint : Injective int) {ns : List V} {E : List (V × V)}
    (hE : IsStructure ns E) {net net' : Net V S K} (hr : Reach int ns E net)
    (hne : ∀ v ∈ net.nodes, statesOf net v ≠ []) {h h' : Heap V S} {ref : ℕ} {df : DF V S}
    (hdf : h[ref]? = some df) {a : FitArgs K}
    (hf : fitCpds int net h ref a = (net', h', .ok ())) :
    net'.nodes = net.nodes ∧ net'.edges = E ∧ (∀ v, statesOf net' v = statesOf net v) ∧
    ∃ tables, cpds net' = .ok tables ∧ tables.map Prod.fst = net.nodes ∧
      ∀ v t, (v, t) ∈ tables →
        t.index = statesOf net v ∧ IsParentList E v t.parents ∧ t.cols.Nodup ∧
        (∀ ps, ps ∈ t.cols ↔ IsConfig net t.parents ps) ∧
        ∀ s ∈ statesOf net v, ∀ ps, IsConfig net t.parents ps →
          t.entry s ps = some (estimate a (statesOf net v)
            (t.parents.map fun p => (statesOf net p).length).prod
            (fun s => observed net df v t.parents s ps) s) := by
  obtain ⟨hn, he, hs, names, ps, hps, hlen, tables, hc, hkeys, h⟩ := fit_cpds_tables hint hE hr hne hdf hf
  refine ⟨hn, he, hs, tables, hc, hkeys, fun v t ht => ?_⟩
  obtain ⟨h1, h2, h3, h4, h5⟩ := h v t ht
  refine ⟨h1, h2, h3, h4, fun s hs c hcf => ?_⟩
  rw [h5 s hs c hcf, probOf_eq_estimate hps _ _ _ (hlen v).symm]
  simp only [hlen]

variable [LinearOrder K] [IsStrictOrderedRing K]

/-- Estimates are probabilities. -/
theorem estimate_prob {a : FitArgs K} (hess : ∀ n, a.ess = some n → 0 < n)
    (hm : a.method = "MaximumLikelihoodEstimator" ∨ a.prior = some "K2" ∨ a.ess ≠ none)
    {ks : List S} (hks : ks ≠ []) {cfgs : ℕ} (hc : 0 < cfgs) (N : S → ℕ) :
    (∀ s, 0 ≤ estimate a ks cfgs N s) ∧ (ks.map (estimate a ks cfgs N)).sum = 1 := by
  have hlen : (0 : K) < ks.length := by
    exact_mod_cast List.length_pos_iff.2 hks
  have hN : ∀ s, (0 : K) ≤ (N s : K) := fun s => Nat.cast_nonneg _
  have htot : (0 : K) ≤ ((ks.map N).sum : ℕ) := Nat.cast_nonneg _
  unfold estimate
  simp only
  by_cases h1 : a.method = "MaximumLikelihoodEstimator"
  · simp only [if_pos h1]
    by_cases h2 : (ks.map N).sum = 0
    · simp only [if_pos h2]
      refine ⟨fun _ => by positivity, ?_⟩
      rw [List.map_const', List.sum_replicate, nsmul_eq_mul]
      field_simp
    · simp only [if_neg h2]
      refine ⟨fun s => div_nonneg (hN s) htot, ?_⟩
      have h3 : (((ks.map N).sum : ℕ) : K) ≠ 0 := by exact_mod_cast h2
      rw [show (fun s => (N s : K) / (((ks.map N).sum : ℕ) : K)) =
        fun s => (N s : K) * (((ks.map N).sum : ℕ) : K)⁻¹ from funext fun _ => div_eq_mul_inv _ _,
        List.sum_map_mul_right, sum_map_cast, mul_inv_cancel₀ h3]
  · simp only [if_neg h1]
    have key : ∀ α : K, 0 < α →
        (∀ s, 0 ≤ ((N s : K) + α) / ((((ks.map N).sum : ℕ) : K) + ks.length * α)) ∧
        (ks.map fun s => ((N s : K) + α) / ((((ks.map N).sum : ℕ) : K) + ks.length * α)).sum = 1 := by
      intro α hα
      have hpos : (0 : K) < (((ks.map N).sum : ℕ) : K) + ks.length * α := by positivity
      refine ⟨fun s => div_nonneg (by have := hN s; positivity) hpos.le, ?_⟩
      simp only [div_eq_mul_inv]
      rw [List.sum_map_mul_right, sum_map_add_const, mul_inv_cancel₀ hpos.ne']
    by_cases h2 : a.prior = some "K2"
    · simp only [if_pos h2]
      simpa using key 1 one_pos
    · simp only [if_neg h2]
      obtain ⟨n, hn⟩ := Option.ne_none_iff_exists'.1 ((hm.resolve_left h1).resolve_left h2)
      have := hess n hn
      have hc' : (0 : K) < cfgs := by exact_mod_cast hc
      simp only [hn, Option.getD_some]
      exact key _ (by positivity)

theorem pseudoOf_ok {names : V → List S} {a : FitArgs K} {ps : V → List V → Pseudo K}
    (h : pseudoOf names a = .ok ps) :
    a.method = "MaximumLikelihoodEstimator" ∨ a.prior = some "K2" ∨ a.ess ≠ none := by
  unfold pseudoOf at h
  split at h
  · exact Or.inl (by assumption)
  · split at h
    · split at h
      · exact Or.inr (Or.inl (by assumption))
      · split at h
        · split at h
          · exact absurd h (by simp)
          · rename_i hn
            exact Or.inr (Or.inr (by simp [hn]))
        · exact absurd h (by simp)
    · exact absurd h (by simp)

/-- **C10**: after a successful `fit_cpds`, every entry is nonnegative and every column sums to one
(for the BDeu prior, if the equivalent sample size is positive). -/
theorem fit_cpds_prob {int : ℕ → S} (hint : Injective int) {ns : List V} {E : List (V × V)}
    (hE : IsStructure ns E) {net net' : Net V S K} (hr : Reach int ns E net)
    (hne : ∀ v ∈ net.nodes, statesOf net v ≠ []) {h h' : Heap V S} {ref : ℕ} {a : FitArgs K}
    (hess : ∀ n, a.ess = some n → 0 < n)
    (hf : fitCpds int net h ref a = (net', h', .ok ())) :
    ∃ tables, cpds net' = .ok tables ∧ tables.map Prod.fst = net.nodes ∧
      ∀ v t, (v, t) ∈ tables → ∃ P : S → List S → K,
        (∀ s ps, s ∈ t.index → ps ∈ t.cols → t.entry s ps = some (P s ps) ∧ 0 ≤ P s ps) ∧
        ∀ ps ∈ t.cols, (t.index.map fun s => P s ps).sum = 1 := by
  obtain ⟨states, df, ps, hst, hdf, -, hps, -⟩ := fitCpds_ok (hr.wf hE) hf
  obtain ⟨-, -, -, tables, h1, h2, h3⟩ := fit_cpds_correct hint hE hr hne hdf hf
  refine ⟨tables, h1, h2, fun v t ht => ?_⟩
  obtain ⟨h4, h5, -, h6, h7⟩ := h3 v t ht
  have hv : v ∈ net.nodes := by
    rw [← h2]
    exact List.mem_map_of_mem ht
  have hw := hr.wf hE
  have hcfg : 0 < (t.parents.map fun p => (statesOf net p).length).prod := by
    apply Nat.pos_of_ne_zero
    rw [Ne, List.prod_eq_zero_iff]
    simp only [List.mem_map, List.length_eq_zero_iff, not_exists, not_and]
    intro p hp
    refine hne p ?_
    rw [hw.nodes, mem_nodesOfEdges]
    exact ⟨_, (h5.2 p).1 hp, Or.inl rfl⟩
  have key := fun ps => estimate_prob hess (pseudoOf_ok hps) (hne v hv) hcfg
    (fun s => observed net df v t.parents s ps)
  refine ⟨fun s ps => estimate a (statesOf net v)
    (t.parents.map fun p => (statesOf net p).length).prod
    (fun s => observed net df v t.parents s ps) s, ?_, ?_⟩
  · intro s ps hs hp
    exact ⟨h7 s (h4 ▸ hs) ps ((h6 ps).1 hp), (key ps).1 s⟩
  · intro ps _
    rw [h4]
    exact (key ps).2

end

end Verif.Network
