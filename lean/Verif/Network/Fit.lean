import Verif.Network.Lemmas
import Verif.Network.Spec

/-!
# Encoding of frames and estimation of CPDs
-/

namespace Verif.Network

open Verif.BBN (lookup_mem lookup_of_mem_nodup lookup_isSome_iff)
open Function

section
variable {V S K : Type} [LinearOrder V] [LinearOrder S]

/-! ### Frames -/

theorem assignCol_ok {h : Heap V S} {ref : ℕ} {df : DF V S} (hdf : h[ref]? = some df) {c : V}
    {g : (V → Option S) → Except Err (Option S)} {f : (V → Option S) → Option S}
    (hg : ∀ r ∈ df.rows, g r = .ok (f r)) :
    assignCol h ref c g = (h.set ref ⟨if c ∈ df.cols then df.cols else df.cols ++ [c],
      df.rows.map fun r => update r c (f r)⟩, .ok ()) := by
  have : (df.rows.mapM fun r => do return update r c (← g r)) =
      (.ok (df.rows.map fun r => update r c (f r)) : Except Err _) := by
    apply mapM_ok
    intro r hr
    rw [hg r hr]
    rfl
  simp only [assignCol, hdf, this]

/-- Only the frame at `ref` is changed. -/
theorem assignCol_heap {h h' : Heap V S} {ref : ℕ} {c : V}
    {g : (V → Option S) → Except Err (Option S)} {r : Except Err Unit}
    (he : assignCol h ref c g = (h', r)) : ∃ df, h' = h.set ref df ∨ h' = h := by
  unfold assignCol at he
  split at he
  · cases he; exact ⟨⟨[], []⟩, Or.inr rfl⟩
  · split at he
    · cases he; exact ⟨⟨[], []⟩, Or.inr rfl⟩
    · cases he; exact ⟨_, Or.inl rfl⟩

theorem prefix_set {α : Type} {l h : List α} {ref : ℕ} {a : α} (hp : l <+: h)
    (hr : l.length ≤ ref) : l <+: h.set ref a := by
  obtain ⟨t, rfl⟩ := hp
  rw [List.set_append_right _ _ hr]
  exact List.prefix_append _ _

theorem assignCol_prefix {l h h' : Heap V S} {ref : ℕ} {c : V}
    {g : (V → Option S) → Except Err (Option S)} {r : Except Err Unit}
    (he : assignCol h ref c g = (h', r)) (hp : l <+: h) (hr : l.length ≤ ref) : l <+: h' := by
  obtain ⟨df, rfl | rfl⟩ := assignCol_heap he
  · exact prefix_set hp hr
  · exact hp

/-- What `_state_to_index` does to a row. -/
def encRow (int : ℕ → S) (states : List (V × List (S × ℕ))) (cs : List V) (r : V → Option S)
    (c : V) : Option S :=
  if c ∈ cs then mapCell int ((states.lookup c).getD []) (r c) else r c

theorem stateToIndex_ok {int : ℕ → S} {states : List (V × List (S × ℕ))} {cs : List V}
    {h : Heap V S} {ref : ℕ} {df : DF V S} (hdf : h[ref]? = some df) (hnd : cs.Nodup)
    (hc : ∀ c ∈ cs, c ∈ df.cols) (hs : ∀ c ∈ cs, c ∈ states.map Prod.fst) :
    stateToIndex int states h ref cs =
      (h.set ref ⟨df.cols, df.rows.map (encRow int states cs)⟩, .ok ()) := by
  induction cs generalizing h df with
  | nil =>
    have : encRow int states ([] : List V) = id := by
      funext r c; simp [encRow]
    have hset : h.set ref df = h := by
      obtain ⟨hlt, rfl⟩ := List.getElem?_eq_some_iff.1 hdf
      exact List.set_getElem_self hlt
    simp [stateToIndex, this, hset]
  | cons c cs ih =>
    rw [List.nodup_cons] at hnd
    obtain ⟨d, hd⟩ := (lookup_isSome_iff states c).2 (hs c (by simp))
    have hlt : ref < h.length := (List.getElem?_eq_some_iff.1 hdf).1
    rw [stateToIndex]
    simp only [hd]
    rw [assignCol_ok hdf (f := fun r => mapCell int d (r c)) (fun _ _ => rfl)]
    simp only [hc c (by simp), if_true]
    rw [ih (df := ⟨df.cols, df.rows.map fun r => update r c (mapCell int d (r c))⟩)
      (by simp [hlt]) hnd.2 (fun x hx => hc x (by simp [hx])) (fun x hx => hs x (by simp [hx]))]
    rw [List.set_set, List.map_map]
    congr 3
    apply List.map_congr_left
    intro r _
    funext x
    simp only [comp, encRow, List.mem_cons]
    by_cases hx : x = c
    · subst hx
      simp [hnd.1, hd]
    · simp [hx]

theorem stateToIndex_prefix {int : ℕ → S} {states : List (V × List (S × ℕ))} {cs : List V}
    {l h h' : Heap V S} {ref : ℕ} {r : Except Err Unit}
    (he : stateToIndex int states h ref cs = (h', r)) (hp : l <+: h) (hr : l.length ≤ ref) :
    l <+: h' := by
  induction cs generalizing h with
  | nil => cases he; exact hp
  | cons c cs ih =>
    rw [stateToIndex] at he
    split at he
    · cases he; exact hp
    · split at he
      · rename_i hh
        cases he
        exact assignCol_prefix hh hp hr
      · rename_i hh
        exact ih he (assignCol_prefix hh hp hr)

theorem stateToIndex_error {int : ℕ → S} {states : List (V × List (S × ℕ))} {cs : List V}
    {h h' : Heap V S} {ref : ℕ} {df : DF V S} (hdf : h[ref]? = some df) {e : Err}
    (he : stateToIndex int states h ref cs = (h', .error e)) :
    e = .keyError ∧ ∃ c ∈ cs, c ∉ states.map Prod.fst := by
  induction cs generalizing h df with
  | nil => simp [stateToIndex] at he
  | cons c cs ih =>
    rw [stateToIndex] at he
    split at he
    · rename_i hn
      cases he
      exact ⟨rfl, c, by simp, lookup_eq_none.1 hn⟩
    · rename_i d hd
      have hlt : ref < h.length := (List.getElem?_eq_some_iff.1 hdf).1
      rw [assignCol_ok hdf (f := fun r => mapCell int d (r c)) (fun _ _ => rfl)] at he
      obtain ⟨h1, x, hx, hx'⟩ := ih (df := ⟨_, _⟩) (by
        rw [List.getElem?_set_self hlt]) he
      exact ⟨h1, x, by simp [hx], hx'⟩

/-! ### Well-formed networks -/

/-- Invariant of the networks of a program. -/
structure Net.WF (ns : List V) (E : List (V × V)) (net : Net V S K) : Prop where
  nodes : net.nodes = nodesOfEdges E
  edges : net.edges = E
  conn : ∀ u ∈ ns, ∀ v ∈ ns, Graph.WConn E u v
  acyclic : Graph.Acyclic E
  keys : ∀ states, net.states = some states → ∀ v ∈ net.nodes, v ∈ states.map Prod.fst
  keys_nodup : ∀ states, net.states = some states → (states.map Prod.fst).Nodup
  enc : ∀ states, net.states = some states → ∀ q ∈ states, ∃ l : List S, l.Nodup ∧ q.2 = encoding l
  cpds : net.cpds = [] ∨ net.cpds.map Prod.fst = net.nodes

end

section
variable {V S K : Type} [LinearOrder V] [LinearOrder S] [Zero K] [One K] [Add K] [Div K] [NatCast K]

theorem addCpd_keys_foldl (l : List (V × PCpd V K)) (c : List (V × PCpd V K))
    (h : ∀ q ∈ l, q.1 ∈ c.map Prod.fst) : (l.foldl addCpd c).map Prod.fst = c.map Prod.fst := by
  induction l generalizing c with
  | nil => rfl
  | cons q l ih =>
    have hk : (addCpd c q).map Prod.fst = c.map Prod.fst := by
      rw [addCpd, if_pos (h q (by simp)), List.map_map]
      apply List.map_congr_left
      intro x _
      by_cases hx : x.1 = q.1 <;> simp [hx]
    rw [List.foldl_cons, ih]
    · exact hk
    · intro x hx
      rw [hk]
      exact h x (by simp [hx])

theorem addCpd_foldl_nil (l c : List (V × PCpd V K)) (hn : ((c ++ l).map Prod.fst).Nodup) :
    l.foldl addCpd c = c ++ l := by
  induction l generalizing c with
  | nil => simp
  | cons q l ih =>
    have hq : q.1 ∉ c.map Prod.fst := by
      intro hm
      rw [List.map_append, List.nodup_append] at hn
      exact hn.2.2 _ hm q.1 (by simp) rfl
    rw [List.foldl_cons, addCpd, if_neg hq, ih]
    · simp
    · simpa using hn

theorem addCpd_foldl_replace (l c : List (V × PCpd V K)) (hn : (l.map Prod.fst).Nodup)
    (hk : ∀ q ∈ l, q.1 ∈ c.map Prod.fst) :
    l.foldl addCpd c = c.map fun q => (q.1, (l.lookup q.1).getD q.2) := by
  induction l generalizing c with
  | nil => simp
  | cons q l ih =>
    rw [List.map_cons, List.nodup_cons] at hn
    have hkeys : (addCpd c q).map Prod.fst = c.map Prod.fst := by
      simpa using addCpd_keys_foldl [q] c (by simpa using hk q (by simp))
    rw [List.foldl_cons, ih _ hn.2 (fun x hx => by rw [hkeys]; exact hk x (by simp [hx]))]
    rw [addCpd, if_pos (hk q (by simp)), List.map_map]
    apply List.map_congr_left
    intro x _
    simp only [comp, lookup_cons']
    by_cases hx : x.1 = q.1
    · have hnone : List.lookup q.1 l = none := lookup_eq_none.2 hn.1
      simp [hx, hnone]
    · simp [hx]

/-- After `fit` the CPDs are those just estimated. -/
theorem pgmFit_cpds {net : Net V S K} (hn : net.nodes.Nodup)
    (hc : net.cpds = [] ∨ net.cpds.map Prod.fst = net.nodes) (ps : V → List V → Pseudo K)
    (names : V → List S) (data : DF V S) :
    (pgmFit net ps names data).cpds = net.nodes.map fun v =>
      (v, estimateCpd ps names net.edges (completeRows data) v) := by
  have hkeys : ((net.nodes.map fun v =>
      (v, estimateCpd ps names net.edges (completeRows data) v)).map Prod.fst) = net.nodes := by
    simp [comp_def]
  rw [pgmFit]
  rcases hc with hc | hc
  · simp only [hc]
    rw [addCpd_foldl_nil]
    · simp
    · simpa [hkeys] using hn
  · simp only
    rw [addCpd_foldl_replace]
    · rw [← hc, List.map_map]
      apply List.map_congr_left
      intro q hq
      simp only [comp, Prod.mk.injEq, true_and]
      have : List.lookup q.1 (List.map ((fun v => (v, estimateCpd ps names net.edges
          (completeRows data) v)) ∘ Prod.fst) net.cpds) = some (estimateCpd ps names net.edges
          (completeRows data) q.1) := by
        apply lookup_of_mem_nodup
        · simpa [comp_def, hc] using hn
        · exact List.mem_map.2 ⟨q, hq, rfl⟩
      rw [this]
      rfl
    · simpa [hkeys] using hn
    · intro q hq
      obtain ⟨v, hv, rfl⟩ := List.mem_map.1 hq
      rw [hc]
      exact hv

theorem setNodeStates_cases (net : Net V S K) (dict : List (V × List (Option S))) :
    setNodeStates net dict = (net, .error .keyError) ∧ (∃ v ∈ net.nodes, v ∉ dict.map Prod.fst) ∨
    setNodeStates net dict = (net, .error .valueError) ∧ (∀ v ∈ net.nodes, v ∈ dict.map Prod.fst) ∧
      (∃ q ∈ dict, none ∈ q.2) ∨
    setNodeStates net dict = (⟨net.nodes, net.edges,
      some (dict.map fun q => (q.1, encoding (q.2.filterMap id))), net.cpds⟩, .ok ()) ∧
      (∀ v ∈ net.nodes, v ∈ dict.map Prod.fst) ∧ ∀ q ∈ dict, none ∉ q.2 := by
  unfold setNodeStates
  by_cases h1 : net.nodes.any (fun v => v ∉ dict.map Prod.fst)
  · left
    rw [if_pos h1]
    simp only [List.any_eq_true, decide_eq_true_eq] at h1
    exact ⟨rfl, h1⟩
  · right
    rw [if_neg h1]
    simp only [List.any_eq_true, decide_eq_true_eq, not_exists, not_and, not_not] at h1
    by_cases h2 : dict.any (fun q => q.2.any Option.isNone)
    · left
      rw [if_pos h2]
      simp only [List.any_eq_true, Option.isNone_iff_eq_none, exists_eq_right] at h2
      exact ⟨rfl, h1, h2⟩
    · right
      rw [if_neg h2]
      simp only [List.any_eq_true, Option.isNone_iff_eq_none, exists_eq_right, not_exists,
        not_and] at h2
      exact ⟨rfl, h1, h2⟩

theorem filterMap_id_nodup {l : List (Option S)} (h : l.Nodup) : (l.filterMap id).Nodup := by
  refine h.filterMap ?_
  intro a b c hc hc'
  simp only [id, Option.mem_def] at hc hc'
  rw [hc, hc']

theorem Reach.wf {int : ℕ → S} {ns : List V} {E : List (V × V)} (hE : IsStructure ns E)
    {net : Net V S K} (h : Reach int ns E net) : net.WF ns E := by
  induction h with
  | @init net h =>
    unfold Network.init at h
    split at h
    · exact absurd h (by simp)
    · rename_i h1
      split at h
      · exact absurd h (by simp)
      · rename_i h2
        cases h
        refine ⟨rfl, rfl, ?_, ?_, by simp, by simp, by simp, Or.inl rfl⟩
        · exact (Graph.weakComponents_length_le_one hE.edges_mem).1 (by omega)
        · exact (Graph.isDag_iff ns E hE.edges_mem).1 (by simpa using h2)
  | @states net net' dict r _ hk hq hs ih =>
    rcases setNodeStates_cases net dict with ⟨h, -⟩ | ⟨h, -⟩ | ⟨h, hcov, hnull⟩ <;>
      rw [h] at hs <;> cases hs
    · exact ih
    · exact ih
    · refine ⟨ih.nodes, ih.edges, ih.conn, ih.acyclic, ?_, ?_, ?_, ih.cpds⟩
      · rintro states ⟨⟩ v hv
        simpa [comp_def] using hcov v hv
      · rintro states ⟨⟩
        simpa [comp_def] using hk
      · rintro states ⟨⟩ q hq'
        obtain ⟨p, hp, rfl⟩ := List.mem_map.1 hq'
        exact ⟨_, filterMap_id_nodup (hq p hp), rfl⟩
  | @fit net net' h h' ref a r _ hf ih =>
    unfold fitCpds at hf
    have hnd : net.nodes.Nodup := by rw [ih.nodes]; exact nodesOfEdges_nodup E
    split at hf
    · cases hf; exact ih
    · cases hf; exact ih
    · simp only at hf
      split at hf
      · split at hf
        · cases hf; exact ih
        · split at hf
          · cases hf; exact ih
          · cases hf; exact ih
          · cases hf
            refine ⟨ih.nodes, ih.edges, ih.conn, ih.acyclic, ih.keys, ih.keys_nodup, ih.enc,
              Or.inr ?_⟩
            rw [pgmFit_cpds hnd ih.cpds, List.map_map]
            exact List.map_id _
      · cases hf; exact ih

end

end Verif.Network
