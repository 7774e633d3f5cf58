import Verif.Structure.Model
import Mathlib.Data.List.Nodup
import Mathlib.Data.List.Perm.Basic

/-! # Helper lemmas about the structure model -/

set_option linter.unusedSectionVars false
set_option linter.unusedSimpArgs false

namespace Verif.Structure

open Verif.Graph

variable {N : Type} [DecidableEq N]

/-! ## Attribute dictionaries -/

lemma Attrs.get_update (d e : Attrs) (k : String) :
    (d.update e).get k = (e.get k).or (d.get k) := by
  unfold Attrs.update Attrs.get
  induction e with
  | nil => simp
  | cons p e ih =>
    obtain ⟨a, b⟩ := p
    simp only [List.cons_append, List.lookup_cons]
    by_cases h : k == a
    · simp [h]
    · simp only [h]; exact ih

lemma Attrs.get_set_self (d : Attrs) (k : String) (v : Val) : (d.set k v).get k = some v := by
  rw [Attrs.set, Attrs.get_update]; simp [Attrs.get]

lemma Attrs.get_set_ne (d : Attrs) {k k' : String} (v : Val) (h : k' ≠ k) :
    (d.set k v).get k' = d.get k' := by
  have : (k' == k) = false := by simpa using h
  rw [Attrs.set, Attrs.get_update]; simp [Attrs.get, List.lookup_cons, this]

/-! ## Well-formedness -/

/-- Nodes are listed once, edges join listed nodes, no parallel edges. -/
structure WF (g : SM N) : Prop where
  nodesNodup : g.nodes.Nodup
  pairsNodup : g.pairs.Nodup
  ends : ∀ e ∈ g.edges, e.src ∈ g.nodes ∧ e.dst ∈ g.nodes

lemma WF.ends' {g : SM N} (h : WF g) : ∀ p ∈ g.pairs, p.1 ∈ g.nodes ∧ p.2 ∈ g.nodes := by
  intro p hp
  obtain ⟨e, he, rfl⟩ := List.mem_map.mp hp
  exact h.ends e he

lemma WF.inj {g : SM N} (h : WF g) {e f : EdgeRec N} (he : e ∈ g.edges) (hf : f ∈ g.edges)
    (hp : e.pair = f.pair) : e = f :=
  List.inj_on_of_nodup_map h.pairsNodup he hf hp

lemma wf_empty : WF (SM.empty : SM N) := ⟨List.nodup_nil, List.nodup_nil, by simp [SM.empty]⟩

lemma mem_addNode {g : SM N} {u v : N} : v ∈ (addNode g u).nodes ↔ v ∈ g.nodes ∨ v = u := by
  unfold addNode
  split
  · constructor
    · exact Or.inl
    · rintro (h | rfl) <;> assumption
  · simp

lemma addNode_edges (g : SM N) (u : N) : (addNode g u).edges = g.edges := by
  unfold addNode; split <;> rfl

lemma addNode_pairs (g : SM N) (u : N) : (addNode g u).pairs = g.pairs := by
  unfold SM.pairs; rw [addNode_edges]

lemma addNode_of_mem {g : SM N} {u : N} (h : u ∈ g.nodes) : addNode g u = g := by
  simp [addNode, h]

lemma wf_addNode {g : SM N} (h : WF g) (u : N) : WF (addNode g u) := by
  refine ⟨?_, ?_, ?_⟩
  · unfold addNode
    split
    · exact h.nodesNodup
    · rename_i hu
      refine List.Nodup.append h.nodesNodup (by simp) ?_
      simpa using hu
  · rw [addNode_pairs]; exact h.pairsNodup
  · intro e he
    rw [addNode_edges] at he
    have := h.ends e he
    rw [mem_addNode, mem_addNode]
    exact ⟨Or.inl this.1, Or.inl this.2⟩

lemma nxAddEdge_nodes (g : SM N) (u v : N) (a : Attrs) :
    (nxAddEdge g u v a).nodes = (addNode (addNode g u) v).nodes := by
  unfold nxAddEdge; simp only; split <;> rfl

lemma nxAddEdge_pairs_old {g : SM N} {u v : N} (a : Attrs) (h : (u, v) ∈ g.pairs) :
    (nxAddEdge g u v a).pairs = g.pairs := by
  unfold nxAddEdge
  simp only [h, if_true]
  unfold SM.pairs
  simp only [addNode_edges, List.map_map]
  apply List.map_congr_left
  intro e _
  simp only [Function.comp]
  split <;> rfl

lemma nxAddEdge_pairs_new {g : SM N} {u v : N} (a : Attrs) (h : (u, v) ∉ g.pairs) :
    (nxAddEdge g u v a).pairs = g.pairs ++ [(u, v)] := by
  unfold nxAddEdge
  simp only [h, if_false]
  simp only [SM.pairs, addNode_edges, List.map_append, List.map_cons, List.map_nil]
  rfl

lemma mem_nxAddEdge {g : SM N} {u v : N} {a : Attrs} {e : EdgeRec N} :
    e ∈ (nxAddEdge g u v a).edges ↔
      (e ∈ g.edges ∧ e.pair ≠ (u, v)) ∨
      (∃ f ∈ g.edges, f.pair = (u, v) ∧ e = ⟨f.src, f.dst, f.attrs.update a⟩) ∨
      ((u, v) ∉ g.pairs ∧ e = ⟨u, v, a⟩) := by
  unfold nxAddEdge
  by_cases h : (u, v) ∈ g.pairs
  · simp only [h, if_true, addNode_edges, List.mem_map, not_true, false_and, or_false]
    constructor
    · rintro ⟨f, hf, rfl⟩
      split
      · rename_i hp; exact Or.inr ⟨f, hf, hp, rfl⟩
      · rename_i hp; exact Or.inl ⟨hf, hp⟩
    · rintro (⟨he, hp⟩ | ⟨f, hf, hp, rfl⟩)
      · exact ⟨e, he, by simp [hp]⟩
      · exact ⟨f, hf, by simp [hp]⟩
  · simp only [h, if_false, addNode_edges, List.mem_append, List.mem_singleton, not_false_iff,
      true_and]
    constructor
    · rintro (he | rfl)
      · left
        refine ⟨he, ?_⟩
        rintro hp
        exact h (List.mem_map.mpr ⟨e, he, hp⟩)
      · exact Or.inr (Or.inr rfl)
    · rintro (⟨he, _⟩ | ⟨f, hf, hp, _⟩ | rfl)
      · exact Or.inl he
      · exact absurd (List.mem_map.mpr ⟨f, hf, hp⟩) h
      · exact Or.inr rfl

lemma wf_nxAddEdge {g : SM N} (h : WF g) (u v : N) (a : Attrs) : WF (nxAddEdge g u v a) := by
  refine ⟨?_, ?_, ?_⟩
  · rw [nxAddEdge_nodes]; exact (wf_addNode (wf_addNode h u) v).nodesNodup
  · by_cases hp : (u, v) ∈ g.pairs
    · rw [nxAddEdge_pairs_old a hp]; exact h.pairsNodup
    · rw [nxAddEdge_pairs_new a hp]
      refine List.Nodup.append h.pairsNodup (by simp) ?_
      simpa using hp
  · intro e he
    rw [nxAddEdge_nodes]
    simp only [mem_addNode]
    rw [mem_nxAddEdge] at he
    rcases he with ⟨he, _⟩ | ⟨f, hf, hp, rfl⟩ | ⟨_, rfl⟩
    · have := h.ends e he
      exact ⟨Or.inl (Or.inl this.1), Or.inl (Or.inl this.2)⟩
    · have := h.ends f hf
      exact ⟨Or.inl (Or.inl this.1), Or.inl (Or.inl this.2)⟩
    · simp

lemma wf_foldl_add {g : SM N} (h : WF g) (eb : List (N × N × Attrs)) (a : Attrs) :
    WF (eb.foldl (fun g e => nxAddEdge g e.1 e.2.1 (a.update e.2.2)) g) := by
  induction eb generalizing g with
  | nil => exact h
  | cons e eb ih => exact ih (wf_nxAddEdge h _ _ _)

lemma mem_removeEdges {g : SM N} {ps : List (N × N)} {e : EdgeRec N} :
    e ∈ (removeEdges g ps).edges ↔ e ∈ g.edges ∧ e.pair ∉ ps := by
  simp [removeEdges]

lemma wf_removeEdges {g : SM N} (h : WF g) (ps : List (N × N)) : WF (removeEdges g ps) := by
  refine ⟨h.nodesNodup, ?_, ?_⟩
  · exact h.pairsNodup.sublist (List.filter_sublist.map _)
  · intro e he
    exact h.ends e (mem_removeEdges.mp he).1

/-! ## Origins -/

lemma validateOrigin_ok {o : String} (h : o ∈ allowedOrigins) : validateOrigin o = .ok () := by
  simp [validateOrigin, h]

lemma validateOrigin_err {o : String} (h : o ∉ allowedOrigins) :
    validateOrigin o = .error .unknownOrigin := by
  simp [validateOrigin, h]

/-- Every edge has an origin, with property `P`. -/
def OriginsIn (P : Val → Prop) (g : SM N) : Prop :=
  ∀ e ∈ g.edges, ∃ x, P x ∧ e.attrs.get "origin" = some x

/-- Every edge has an allowed origin. -/
def OriginsOk (g : SM N) : Prop :=
  ∀ e ∈ g.edges, ∃ o ∈ allowedOrigins, e.attrs.get "origin" = some (.str o)

/-- Every edge has an origin. -/
def HasOrigins (g : SM N) : Prop := ∀ e ∈ g.edges, ∃ x, e.attrs.get "origin" = some x

lemma hasOrigins_iff {g : SM N} : HasOrigins g ↔ OriginsIn (fun _ => True) g := by
  simp [HasOrigins, OriginsIn]

lemma originsOk_iff {g : SM N} : OriginsOk g ↔ OriginsIn (fun x => ∃ o ∈ allowedOrigins, x = .str o) g := by
  constructor
  · intro h e he
    obtain ⟨o, ho, hg⟩ := h e he
    exact ⟨_, ⟨o, ho, rfl⟩, hg⟩
  · intro h e he
    obtain ⟨x, ⟨o, ho, rfl⟩, hg⟩ := h e he
    exact ⟨o, ho, hg⟩

lemma OriginsIn.has {P : Val → Prop} {g : SM N} (h : OriginsIn P g) : HasOrigins g := fun e he =>
  let ⟨x, _, hx⟩ := h e he
  ⟨x, hx⟩

lemma OriginsOk.has {g : SM N} (h : OriginsOk g) : HasOrigins g := (originsOk_iff.mp h).has

variable {P : Val → Prop}

lemma originsIn_nxAddEdge {g : SM N} (h : OriginsIn P g) (u v : N) {a : Attrs}
    (ha : ∃ x, P x ∧ a.get "origin" = some x) : OriginsIn P (nxAddEdge g u v a) := by
  intro e he
  rw [mem_nxAddEdge] at he
  rcases he with ⟨he, _⟩ | ⟨f, hf, hp, rfl⟩ | ⟨_, rfl⟩
  · exact h e he
  · obtain ⟨x, hx, hg⟩ := ha
    refine ⟨x, hx, ?_⟩
    simp [Attrs.get_update, hg]
  · exact ha

lemma originsIn_foldl {g : SM N} (h : OriginsIn P g) (eb : List (N × N × Attrs)) {a : Attrs}
    (ha : ∃ x, P x ∧ a.get "origin" = some x)
    (heb : ∀ e ∈ eb, ∀ x, Attrs.get e.2.2 "origin" = some x → P x) :
    OriginsIn P (eb.foldl (fun g e => nxAddEdge g e.1 e.2.1 (a.update e.2.2)) g) := by
  induction eb generalizing g with
  | nil => exact h
  | cons e eb ih =>
    refine ih (originsIn_nxAddEdge h _ _ ?_) (fun e he => heb e (List.mem_cons_of_mem _ he))
    cases h0 : Attrs.get e.2.2 "origin" with
    | none =>
      obtain ⟨x, hx, hg⟩ := ha
      exact ⟨x, hx, by simp [Attrs.get_update, h0, hg]⟩
    | some x => exact ⟨x, heb e List.mem_cons_self x h0, by simp [Attrs.get_update, h0]⟩

lemma originsIn_removeEdges {g : SM N} (h : OriginsIn P g) (ps : List (N × N)) :
    OriginsIn P (removeEdges g ps) := by
  intro e he
  exact h e (mem_removeEdges.mp he).1

lemma addEdgesFrom_ok {g : SM N} {eb : List (N × N × Attrs)} {o : String} {a : Attrs}
    (h : o ∈ allowedOrigins) : addEdgesFrom g eb o a =
      .ok (eb.foldl (fun g e => nxAddEdge g e.1 e.2.1 ((a.set "origin" (.str o)).update e.2.2)) g) := by
  simp [addEdgesFrom, validateOrigin_ok h, bind, Except.bind, pure, Except.pure]

lemma addEdgesFrom_err {g : SM N} {eb : List (N × N × Attrs)} {o : String} {a : Attrs}
    (h : o ∉ allowedOrigins) : addEdgesFrom g eb o a = .error .unknownOrigin := by
  simp [addEdgesFrom, validateOrigin_err h, bind, Except.bind]

lemma addEdge_ok {g : SM N} {u v : N} {o : String} {a : Attrs} (h : o ∈ allowedOrigins) :
    addEdge g u v o a = .ok (nxAddEdge g u v (a.set "origin" (.str o))) := by
  simp [addEdge, validateOrigin_ok h, bind, Except.bind, pure, Except.pure]

lemma addEdge_err {g : SM N} {u v : N} {o : String} {a : Attrs} (h : o ∉ allowedOrigins) :
    addEdge g u v o a = .error .unknownOrigin := by
  simp [addEdge, validateOrigin_err h, bind, Except.bind]

lemma addWeighted_ok {g : SM N} {eb : List (N × N × ℚ)} {w o : String} {a : Attrs}
    (h : o ∈ allowedOrigins) : addWeightedEdgesFrom g eb w o a =
      addEdgesFrom g (eb.map (fun e => (e.1, e.2.1, [(w, Val.num e.2.2)]))) o a := by
  simp [addWeightedEdgesFrom, validateOrigin_ok h, bind, Except.bind]

lemma addWeighted_err {g : SM N} {eb : List (N × N × ℚ)} {w o : String} {a : Attrs}
    (h : o ∉ allowedOrigins) : addWeightedEdgesFrom g eb w o a = .error .unknownOrigin := by
  simp [addWeightedEdgesFrom, validateOrigin_err h, bind, Except.bind]

/-! ## mapM in Except -/

lemma mapM_ok {α β ε : Type} (f : α → Except ε β) (h : α → β) :
    ∀ l : List α, (∀ x ∈ l, f x = .ok (h x)) → l.mapM f = .ok (l.map h) := by
  intro l
  induction l with
  | nil => intro _; rfl
  | cons x l ih =>
    intro hl
    rw [List.mapM_cons, hl x List.mem_cons_self, ih (fun y hy => hl y (List.mem_cons_of_mem _ hy))]
    rfl

lemma mapM_err {α β ε : Type} (f : α → Except ε β) (c : ε) (hc : ∀ x, (∃ b, f x = .ok b) ∨ f x = .error c) :
    ∀ l : List α, (∃ x ∈ l, f x = .error c) → l.mapM f = .error c := by
  intro l
  induction l with
  | nil => rintro ⟨x, hx, _⟩; simp at hx
  | cons x l ih =>
    rintro ⟨y, hy, he⟩
    rw [List.mapM_cons]
    rcases hc x with ⟨b, hb⟩ | hx
    · rcases List.mem_cons.mp hy with rfl | hy
      · rw [hb] at he; cases he
      · rw [hb, ih ⟨y, hy, he⟩]; rfl
    · rw [hx]; rfl

/-! ## Weights -/

/-- The numeric `weight` of an edge, if it has one. -/
def weightOf (e : EdgeRec N) : Option ℚ :=
  match e.attrs.get "weight" with
  | some (.num q) => some q
  | _ => none

/-- `|weight|`, 0 for edges without weight (only used below for weighted edges). -/
def aw (e : EdgeRec N) : ℚ := |(weightOf e).getD 0|

/-- All edges carry a numeric weight. -/
def Weighted (g : SM N) : Prop := ∀ e ∈ g.edges, ∃ q, weightOf e = some q

omit [DecidableEq N] in
lemma absWeight_ok {e : EdgeRec N} {q : ℚ} (h : weightOf e = some q) : absWeight e = .ok |q| := by
  unfold weightOf at h
  unfold absWeight
  split at h
  · rename_i q' hq; simp at h; subst h; simp [hq]
  · simp at h

omit [DecidableEq N] in
lemma absWeight_err {e : EdgeRec N} (h : weightOf e = none) : absWeight e = .error .typeError := by
  unfold weightOf at h
  unfold absWeight
  split at h
  · simp at h
  · rename_i hn
    split
    · rename_i q hq; exact absurd hq (hn q)
    · rfl

omit [DecidableEq N] in
lemma absWeight_cases (e : EdgeRec N) :
    (∃ b, absWeight e = .ok b) ∨ absWeight e = .error .typeError := by
  cases h : weightOf e with
  | none => exact Or.inr (absWeight_err h)
  | some q => exact Or.inl ⟨_, absWeight_ok h⟩

omit [DecidableEq N] in
lemma mapM_weights {es : List (EdgeRec N)} (h : ∀ e ∈ es, ∃ q, weightOf e = some q) :
    es.mapM (fun e => do return (e.pair, ← absWeight e)) = Except.ok (es.map (fun e => (e.pair, aw e))) := by
  apply mapM_ok
  intro e he
  obtain ⟨q, hq⟩ := h e he
  simp [absWeight_ok hq, aw, hq, bind, Except.bind, pure, Except.pure]

omit [DecidableEq N] in
lemma mapM_weights_err {es : List (EdgeRec N)} (h : ∃ e ∈ es, weightOf e = none) :
    es.mapM (fun e => do return (e.pair, ← absWeight e)) = Except.error Err.typeError := by
  apply mapM_err
  · intro e
    rcases absWeight_cases e with ⟨b, hb⟩ | hb
    · exact Or.inl ⟨(e.pair, b), by simp [hb, bind, Except.bind, pure, Except.pure]⟩
    · exact Or.inr (by simp [hb, bind, Except.bind])
  · obtain ⟨e, he, hn⟩ := h
    exact ⟨e, he, by simp [absWeight_err hn, bind, Except.bind]⟩

lemma removeBelow_ok {g : SM N} (hw : Weighted g) (t : ℚ) :
    removeEdgesBelowThreshold g t = .ok (removeEdges g
      (((g.edges.map (fun e => (e.pair, aw e))).filter (fun p => decide (p.2 < t))).map Prod.fst)) := by
  unfold removeEdgesBelowThreshold
  rw [mapM_weights hw]
  rfl

lemma removeBelow_err {g : SM N} (hw : ¬ Weighted g) (t : ℚ) :
    removeEdgesBelowThreshold g t = .error .typeError := by
  unfold removeEdgesBelowThreshold
  rw [mapM_weights_err]
  · rfl
  · unfold Weighted at hw
    push Not at hw
    obtain ⟨e, he, h⟩ := hw
    refine ⟨e, he, ?_⟩
    cases hq : weightOf e with
    | none => rfl
    | some q => exact absurd hq (h q)

lemma removeBelow_edges {g : SM N} (hwf : WF g) (t : ℚ) :
    (removeEdges g (((g.edges.map (fun e => (e.pair, aw e))).filter
      (fun p => decide (p.2 < t))).map Prod.fst)) =
      { g with edges := g.edges.filter (fun e => decide (t ≤ aw e)) } := by
  unfold removeEdges
  congr 1
  apply List.filter_congr
  intro e he
  rw [decide_eq_decide]
  simp only [List.mem_map, List.mem_filter, decide_eq_true_eq]
  constructor
  · intro h
    by_contra hlt
    exact h ⟨(e.pair, aw e), ⟨⟨e, he, rfl⟩, not_le.mp hlt⟩, rfl⟩
  · rintro h ⟨p, ⟨⟨f, hf, rfl⟩, hlt⟩, hp⟩
    have : f = e := hwf.inj hf he hp
    subst this
    exact absurd h (not_le.mpr hlt)

/-! ## Subgraphs -/

/-- Adding fresh edges between existing nodes just appends them. -/
lemma foldl_add_fresh (a : Attrs) : ∀ (eb : List (N × N × Attrs)) (g : SM N),
    (∀ e ∈ eb, e.1 ∈ g.nodes ∧ e.2.1 ∈ g.nodes) →
    (g.pairs ++ eb.map (fun e => (e.1, e.2.1))).Nodup →
    eb.foldl (fun g e => nxAddEdge g e.1 e.2.1 (a.update e.2.2)) g =
      { g with edges := g.edges ++ eb.map (fun e => ⟨e.1, e.2.1, a.update e.2.2⟩) } := by
  intro eb
  induction eb with
  | nil => intro g _ _; simp
  | cons e eb ih =>
    intro g hn hd
    obtain ⟨h1, h2⟩ := hn e List.mem_cons_self
    have hnot : (e.1, e.2.1) ∉ g.pairs := by
      intro h
      rw [List.nodup_append] at hd
      exact hd.2.2 _ h _ (by simp) rfl
    have hg : nxAddEdge g e.1 e.2.1 (a.update e.2.2) =
        { g with edges := g.edges ++ [⟨e.1, e.2.1, a.update e.2.2⟩] } := by
      unfold nxAddEdge
      simp only [hnot, if_false, addNode_of_mem h1, addNode_of_mem h2]
    rw [List.foldl_cons, hg, ih]
    · simp
    · intro f hf; exact hn f (List.mem_cons_of_mem _ hf)
    · have : SM.pairs { g with edges := g.edges ++ [⟨e.1, e.2.1, a.update e.2.2⟩] } =
          g.pairs ++ [(e.1, e.2.1)] := by
        simp [SM.pairs, EdgeRec.pair]
      rw [this]
      simpa using hd

/-- The edges with both ends in `c`. -/
def inner (g : SM N) (c : List N) : List (EdgeRec N) :=
  g.edges.filter (fun e => decide (e.src ∈ c) && decide (e.dst ∈ c))

lemma subgraphCopy_ok {g : SM N} (h : WF g) (c : List N) :
    subgraphCopy g c = .ok ⟨g.nodes.filter (fun v => decide (v ∈ c)),
      (inner g c).map (fun e => ⟨e.src, e.dst,
        (Attrs.set [] "origin" (.str "unknown")).update e.attrs⟩)⟩ := by
  unfold subgraphCopy
  rw [addEdgesFrom_ok (by decide), foldl_add_fresh]
  · simp only [List.nil_append, List.map_map]
    rfl
  · intro e he
    obtain ⟨f, hf, rfl⟩ := List.mem_map.mp he
    simp only [List.mem_filter, Bool.and_eq_true, decide_eq_true_eq] at hf ⊢
    exact ⟨⟨(h.ends f hf.1).1, hf.2.1⟩, ⟨(h.ends f hf.1).2, hf.2.2⟩⟩
  · simp only [SM.pairs, List.map_nil, List.nil_append, List.map_map]
    exact h.pairsNodup.sublist (List.filter_sublist.map _)

/-- `s` is the subgraph of `g` induced on the nodes satisfying `c`, with the same edge attributes. -/
structure Induced (g s : SM N) (c : N → Prop) : Prop where
  nodes : ∀ v, v ∈ s.nodes ↔ v ∈ g.nodes ∧ c v
  pairs : ∀ p, p ∈ s.pairs ↔ p ∈ g.pairs ∧ c p.1 ∧ c p.2
  attrs : ∀ e ∈ s.edges, ∃ f ∈ g.edges, f.pair = e.pair ∧ ∀ k, e.attrs.get k = f.attrs.get k

lemma attrs_copy {a : Attrs} {v : Val} (h : a.get "origin" = some v) (k : String) :
    ((Attrs.set [] "origin" (.str "unknown")).update a).get k = a.get k := by
  rw [Attrs.get_update]
  by_cases hk : k = "origin"
  · subst hk; simp [h]
  · rw [Attrs.get_set_ne _ _ hk]; simp [Attrs.get]

lemma subgraphCopy_spec {g : SM N} (h : WF g) (ho : HasOrigins g) (c : List N) :
    ∃ s, subgraphCopy g c = .ok s ∧ Induced g s (· ∈ c) ∧ WF s ∧ (∀ P, OriginsIn P g → OriginsIn P s) ∧
      s.edges.length = (inner g c).length := by
  refine ⟨_, subgraphCopy_ok h c, ⟨?_, ?_, ?_⟩, ⟨?_, ?_, ?_⟩, ?_, ?_⟩
  · intro v; simp
  · intro p
    simp only [SM.pairs, List.map_map, List.mem_map, inner, List.mem_filter, Bool.and_eq_true,
      decide_eq_true_eq, Function.comp]
    constructor
    · rintro ⟨e, ⟨he, h1, h2⟩, rfl⟩
      exact ⟨⟨e, he, rfl⟩, h1, h2⟩
    · rintro ⟨⟨e, he, rfl⟩, h1, h2⟩
      exact ⟨e, ⟨he, h1, h2⟩, rfl⟩
  · intro e he
    obtain ⟨f, hf, rfl⟩ := List.mem_map.mp he
    have hf := (List.mem_filter.mp hf).1
    obtain ⟨o, hget⟩ := ho f hf
    exact ⟨f, hf, rfl, attrs_copy hget⟩
  · exact h.nodesNodup.filter _
  · simp only [SM.pairs, List.map_map]
    exact h.pairsNodup.sublist (List.filter_sublist.map _)
  · intro e he
    obtain ⟨f, hf, rfl⟩ := List.mem_map.mp he
    simp only [inner, List.mem_filter, Bool.and_eq_true, decide_eq_true_eq] at hf ⊢
    exact ⟨⟨(h.ends f hf.1).1, hf.2.1⟩, ⟨(h.ends f hf.1).2, hf.2.2⟩⟩
  · intro P ho e he
    obtain ⟨f, hf, rfl⟩ := List.mem_map.mp he
    have hf := (List.mem_filter.mp hf).1
    obtain ⟨o, hol, hget⟩ := ho f hf
    exact ⟨o, hol, by rw [attrs_copy hget]; exact hget⟩
  · simp

/-- Copies, with the directions of the edges kept or reversed. -/
lemma refill_spec {g : SM N} (h : WF g) (ho : HasOrigins g) (f : N × N → N × N) (hf : Function.Injective f)
    (hn : ∀ p ∈ g.pairs, (f p).1 ∈ g.nodes ∧ (f p).2 ∈ g.nodes) :
    ∃ s, addEdgesFrom ⟨g.nodes, []⟩ (g.edges.map (fun e => ((f e.pair).1, (f e.pair).2, e.attrs))) "unknown" [] = .ok s ∧
      s.nodes = g.nodes ∧ s.pairs = g.pairs.map f ∧ WF s ∧ (∀ P, OriginsIn P g → OriginsIn P s) ∧
      ∀ e ∈ s.edges, ∃ e' ∈ g.edges, e.pair = f e'.pair ∧ ∀ k, e.attrs.get k = e'.attrs.get k := by
  have hpairs : (g.edges.map fun e => f e.pair).Nodup := by
    have := h.pairsNodup.map hf
    simpa [SM.pairs, List.map_map, Function.comp_def] using this
  rw [addEdgesFrom_ok (by decide), foldl_add_fresh]
  · refine ⟨_, rfl, rfl, ?_, ⟨h.nodesNodup, ?_, ?_⟩, ?_, ?_⟩
    · simp [SM.pairs, EdgeRec.pair, Function.comp_def]
    · simpa [SM.pairs, EdgeRec.pair, Function.comp_def] using hpairs
    · intro e he
      simp only [List.nil_append, List.map_map, List.mem_map, Function.comp] at he
      obtain ⟨e', he', rfl⟩ := he
      exact hn _ (List.mem_map.mpr ⟨e', he', rfl⟩)
    · intro P hP e he
      simp only [List.nil_append, List.map_map, List.mem_map, Function.comp] at he
      obtain ⟨e', he', rfl⟩ := he
      obtain ⟨x, hx, hget⟩ := hP e' he'
      exact ⟨x, hx, by rw [attrs_copy hget]; exact hget⟩
    · intro e he
      simp only [List.nil_append, List.map_map, List.mem_map, Function.comp] at he
      obtain ⟨e', he', rfl⟩ := he
      obtain ⟨x, hget⟩ := ho e' he'
      exact ⟨e', he', rfl, attrs_copy hget⟩
  · intro e he
    obtain ⟨e', he', rfl⟩ := List.mem_map.mp he
    exact hn _ (List.mem_map.mpr ⟨e', he', rfl⟩)
  · simpa [SM.pairs, Function.comp_def] using hpairs

/-- What the loop of `get_largest_subgraph` computes. -/
lemma largestLoop_spec {g : SM N} (h : WF g) (ho : HasOrigins g) :
    ∀ (cs : List (List N)) (n : ℕ) (best : Option (SM N)),
      ∃ r, largestLoop g cs n best = .ok r ∧
        ((r = best ∧ ∀ c ∈ cs, (inner g c).length ≤ n) ∨
         (∃ c ∈ cs, ∃ s, r = some s ∧ subgraphCopy g c = .ok s ∧ n < (inner g c).length ∧
            s.edges.length = (inner g c).length ∧
            ∀ d ∈ cs, (inner g d).length ≤ (inner g c).length)) := by
  intro cs
  induction cs with
  | nil => intro n best; exact ⟨best, rfl, Or.inl ⟨rfl, by simp⟩⟩
  | cons c cs ih =>
    intro n best
    obtain ⟨s, hs, -, -, -, hlen⟩ := subgraphCopy_spec h ho c
    by_cases hgt : s.edges.length > n
    · obtain ⟨r, hr, hcase⟩ := ih s.edges.length (some s)
      refine ⟨r, ?_, Or.inr ?_⟩
      · simp only [largestLoop, hs, bind, Except.bind, hgt, if_true]; exact hr
      · rcases hcase with ⟨rfl, hle⟩ | ⟨c', hc', s', rfl, hs', hlt, hlen', hmax⟩
        · refine ⟨c, List.mem_cons_self, s, rfl, hs, by omega, hlen, ?_⟩
          intro d hd
          rcases List.mem_cons.mp hd with rfl | hd
          · exact le_rfl
          · have := hle d hd; omega
        · refine ⟨c', List.mem_cons_of_mem _ hc', s', rfl, hs', by omega, hlen', ?_⟩
          intro d hd
          rcases List.mem_cons.mp hd with rfl | hd
          · omega
          · exact hmax d hd
    · obtain ⟨r, hr, hcase⟩ := ih n best
      refine ⟨r, ?_, ?_⟩
      · simp only [largestLoop, hs, bind, Except.bind, hgt, if_false]; exact hr
      · rcases hcase with ⟨rfl, hle⟩ | ⟨c', hc', s', rfl, hs', hlt, hlen', hmax⟩
        · refine Or.inl ⟨rfl, ?_⟩
          intro d hd
          rcases List.mem_cons.mp hd with rfl | hd
          · omega
          · exact hle d hd
        · refine Or.inr ⟨c', List.mem_cons_of_mem _ hc', s', rfl, hs', hlt, hlen', ?_⟩
          intro d hd
          rcases List.mem_cons.mp hd with rfl | hd
          · omega
          · exact hmax d hd

lemma targetLoop_spec {g : SM N} (h : WF g) (ho : HasOrigins g) {node : N} (hn : node ∈ g.nodes) :
    ∀ cs : List (List N), (∃ c ∈ cs, node ∈ c) →
      ∃ c ∈ cs, node ∈ c ∧ ∃ s, targetLoop g node cs = .ok s ∧ subgraphCopy g c = .ok s := by
  intro cs
  induction cs with
  | nil => rintro ⟨c, hc, _⟩; simp at hc
  | cons c cs ih =>
    intro hex
    obtain ⟨s, hs, hind, -⟩ := subgraphCopy_spec h ho c
    have hiff : node ∈ s.nodes ↔ node ∈ c := by rw [hind.nodes]; exact ⟨fun h => h.2, fun h => ⟨hn, h⟩⟩
    by_cases hc : node ∈ c
    · refine ⟨c, List.mem_cons_self, hc, s, ?_, hs⟩
      simp only [targetLoop, hs, bind, Except.bind, hiff, hc, if_true]; rfl
    · obtain ⟨d, hd, hnd⟩ := hex
      rcases List.mem_cons.mp hd with rfl | hd
      · exact absurd hnd hc
      · obtain ⟨e, he, hne, s', hs', hse⟩ := ih ⟨d, hd, hnd⟩
        refine ⟨e, List.mem_cons_of_mem _ he, hne, s', ?_, hse⟩
        simp only [targetLoop, hs, bind, Except.bind, hiff, hc, if_false]; exact hs'

/-! ## Thresholding until acyclic -/

lemma minByKey_mem {α : Type} (b : α × ℚ) (l : List (α × ℚ)) : minByKey b l ∈ b :: l := by
  induction l generalizing b with
  | nil => simp [minByKey]
  | cons x l ih =>
    unfold minByKey
    split
    · exact List.mem_cons_of_mem _ (ih x)
    · have := ih b
      rcases List.mem_cons.mp this with h | h
      · rw [h]; exact List.mem_cons_self
      · exact List.mem_cons_of_mem _ (List.mem_cons_of_mem _ h)

lemma minByKey_le {α : Type} (b : α × ℚ) (l : List (α × ℚ)) :
    ∀ x ∈ b :: l, (minByKey b l).2 ≤ x.2 := by
  induction l generalizing b with
  | nil => intro x hx; simp at hx; subst hx; simp [minByKey]
  | cons y l ih =>
    intro x hx
    unfold minByKey
    split
    · rename_i hlt
      rcases List.mem_cons.mp hx with rfl | hx
      · exact (ih y y List.mem_cons_self).trans hlt.le
      · exact ih y x hx
    · rename_i hlt
      rcases List.mem_cons.mp hx with rfl | hx
      · exact ih x x List.mem_cons_self
      · rcases List.mem_cons.mp hx with rfl | hx
        · exact (ih b b List.mem_cons_self).trans (not_lt.mp hlt)
        · exact ih b x (List.mem_cons_of_mem _ hx)

lemma SM.isDag_iff {g : SM N} (h : WF g) : g.isDag = true ↔ Acyclic g.pairs :=
  Graph.isDag_iff _ _ h.ends'

lemma weighted_removeEdges {g : SM N} (h : Weighted g) (ps : List (N × N)) :
    Weighted (removeEdges g ps) := fun e he => h e (mem_removeEdges.mp he).1

/-- One round of the loop removes an edge of least `|weight|`. -/
lemma tillDag_round (vis : Visit (EdgeRec N)) {g : SM N} (hwf : WF g) (hw : Weighted g) (hd : g.isDag = false) :
    ∃ e ∈ g.edges, (∀ f ∈ g.edges, aw e ≤ aw f) ∧
      (removeEdges g [e.pair]).edges.length + 1 = g.edges.length ∧
      ∀ k, tillDagLoop vis (k + 1) g = tillDagLoop vis k (removeEdges g [e.pair]) := by
  have hne : g.edges ≠ [] := by
    intro h
    have : g.isDag = true := by
      rw [SM.isDag_iff hwf]
      intro v hv
      obtain ⟨u, _, hu⟩ := Relation.TransGen.tail'_iff.mp hv
      simp [EdgeRel, SM.pairs, h] at hu
    rw [this] at hd; cases hd
  have hp := vis.2 g.edges
  obtain ⟨a, es, hes⟩ := List.exists_cons_of_ne_nil (l := vis.1 g.edges) fun h => hne (hp.symm.trans (h ▸ .refl _)).eq_nil
  set w := (a.pair, aw a)
  set ws := es.map (fun e => (e.pair, aw e))
  have hcons : (vis.1 g.edges).map (fun e => (e.pair, aw e)) = w :: ws := by rw [hes]; rfl
  have hm := minByKey_mem w ws
  rw [← hcons] at hm
  obtain ⟨e, he, hew⟩ := List.mem_map.mp hm
  replace he := hp.mem_iff.1 he
  refine ⟨e, he, ?_, ?_, ?_⟩
  · intro f hf
    have := minByKey_le w ws (f.pair, aw f) (by rw [← hcons]; exact List.mem_map.mpr ⟨f, hp.mem_iff.2 hf, rfl⟩)
    rw [← hew] at this
    exact this
  · have h1 : (removeEdges g [e.pair]).edges = g.edges.filter (fun f => decide (f ≠ e)) := by
      unfold removeEdges
      apply List.filter_congr
      intro f hf
      rw [decide_eq_decide]
      simp only [List.mem_singleton, ne_eq]
      constructor
      · rintro h rfl; exact h rfl
      · intro h hp; exact h (hwf.inj hf he hp)
    have hnd : g.edges.Nodup := List.Nodup.of_map _ hwf.pairsNodup
    rw [h1]
    have : g.edges.filter (fun f => decide (f ≠ e)) = g.edges.erase e := by
      rw [hnd.erase_eq_filter]
      apply List.filter_congr
      intro f _
      by_cases hfe : f = e <;> simp [hfe]
    rw [this, List.length_erase_of_mem he]
    have : 0 < g.edges.length := List.length_pos_of_mem he
    omega
  · intro k
    rw [tillDagLoop, hd, mapM_weights fun f hf => hw f (hp.mem_iff.1 hf), hcons]
    simp only [bind, Except.bind]
    have : e.pair = (minByKey w ws).1 := by rw [← hew]
    rw [this]
    simp

/-- The result of the loop. -/
lemma tillDag_spec (vis : Visit (EdgeRec N)) : ∀ (k : ℕ) (g : SM N), WF g → Weighted g → g.edges.length ≤ k →
    ∃ g', tillDagLoop vis k g = .ok g' ∧ g'.nodes = g.nodes ∧ g'.edges.Sublist g.edges ∧
      Acyclic g'.pairs ∧
      (∀ e ∈ g.edges, e ∉ g'.edges → ∀ f ∈ g'.edges, aw e ≤ aw f) ∧
      (g' = g ∨ ∃ e ∈ g.edges, e ∉ g'.edges ∧
        (∀ f ∈ g.edges, f ∉ g'.edges → aw f ≤ aw e) ∧ ¬ Acyclic (e.pair :: g'.pairs)) := by
  intro k
  induction k with
  | zero =>
    intro g hwf hw hlen
    have hd : g.isDag = true := by
      by_contra h
      obtain ⟨e, he, -⟩ := tillDag_round vis hwf hw (by simpa using h)
      have := List.length_pos_of_mem he
      omega
    refine ⟨g, by rw [tillDagLoop, hd]; rfl, rfl, List.Sublist.refl _, (SM.isDag_iff hwf).mp hd, ?_,
      Or.inl rfl⟩
    intro e he hne; exact absurd he hne
  | succ k ih =>
    intro g hwf hw hlen
    by_cases hd : g.isDag = true
    · refine ⟨g, by rw [tillDagLoop, hd]; rfl, rfl, List.Sublist.refl _, (SM.isDag_iff hwf).mp hd, ?_,
        Or.inl rfl⟩
      intro e he hne; exact absurd he hne
    · obtain ⟨e, he, hmin, hl, hstep⟩ := tillDag_round vis hwf hw (by simpa using hd)
      have hwf1 := wf_removeEdges hwf [e.pair]
      obtain ⟨g', hg', hn, hsub, hac, hrem, hlast⟩ :=
        ih (removeEdges g [e.pair]) hwf1 (weighted_removeEdges hw _) (by omega)
      have hmem : ∀ f ∈ g.edges, f ∈ (removeEdges g [e.pair]).edges ∨ f = e := by
        intro f hf
        by_cases h : f = e
        · exact Or.inr h
        · left
          rw [mem_removeEdges]
          refine ⟨hf, ?_⟩
          simp only [List.mem_singleton]
          exact fun hp => h (hwf.inj hf he hp)
      have hle : (removeEdges g [e.pair]).edges.Sublist g.edges := List.filter_sublist
      have he' : e ∉ g'.edges := by
        intro h
        have := mem_removeEdges.mp (hsub.subset h)
        exact this.2 (List.mem_singleton.mpr rfl)
      refine ⟨g', by rw [hstep]; exact hg', hn, hsub.trans hle, hac, ?_, Or.inr ?_⟩
      · intro f hf hfn x hx
        rcases hmem f hf with h | rfl
        · exact hrem f h hfn x hx
        · exact hmin x (hle.subset (hsub.subset hx))
      · rcases hlast with rfl | ⟨f, hf, hfn, hfmax, hcyc⟩
        · refine ⟨e, he, he', ?_, ?_⟩
          · intro f hf hfn
            rcases hmem f hf with h | rfl
            · exact absurd h hfn
            · exact le_rfl
          · intro hacy
            apply hd
            rw [SM.isDag_iff hwf]
            refine Acyclic.mono ?_ hacy
            intro p hp
            obtain ⟨f, hf, rfl⟩ := List.mem_map.mp hp
            rcases hmem f hf with h | rfl
            · exact List.mem_cons_of_mem _ (List.mem_map.mpr ⟨f, h, rfl⟩)
            · exact List.mem_cons_self
        · refine ⟨f, hle.subset hf, hfn, ?_, hcyc⟩
          intro x hx hxn
          rcases hmem x hx with h | rfl
          · exact hfmax x h hxn
          · exact hmin f (hle.subset hf)

lemma tillDag_acyclic (vis : Visit (EdgeRec N)) {g : SM N} (h : g.isDag = true) (k : ℕ) : tillDagLoop vis k g = .ok g := by
  cases k <;> rw [tillDagLoop, h] <;> rfl

lemma tillDag_unweighted (vis : Visit (EdgeRec N)) {g : SM N} (h : g.isDag = false) (hw : ¬ Weighted g) (k : ℕ) :
    tillDagLoop vis k g = .error .typeError := by
  have hm : (vis.1 g.edges).mapM (fun e => do return (e.pair, ← absWeight e)) = Except.error Err.typeError := ?_
  · cases k <;> rw [tillDagLoop, h, hm] <;> rfl
  · apply mapM_weights_err
    unfold Weighted at hw
    push Not at hw
    obtain ⟨e, he, h⟩ := hw
    refine ⟨e, (vis.2 _).mem_iff.2 he, ?_⟩
    cases hq : weightOf e with
    | none => rfl
    | some q => exact absurd hq (h q)

end Verif.Structure
