import Verif.Structure.Lemmas

/-!
# Properties C01 - C06 and C90 of `StructureModel`

Specification vocabulary used in the statements (small, independent of the model's loops):
* `Acyclic`, `WConn` (`Verif.Graph.Basic`): no directed closed walk; joined by an undirected walk;
* `weightOf e` / `aw e`: the numeric `weight` attribute of an edge / its absolute value;
* `Weighted g`: every edge has a numeric weight;
* `Induced g s c`: `s` has exactly the nodes of `g` in `c`, the edges of `g` between them, same attributes;
* `WF g`: no duplicate nodes, no parallel edges, edges join nodes (proved for every reachable graph);
* `HasOrigins g`: every edge has an attribute `origin` (proved for every reachable graph).
-/

set_option linter.unusedSectionVars false

namespace Verif.Structure

open Verif.Graph

variable {N : Type} [DecidableEq N]

/-- The call does not smuggle an `origin` through a per-edge dictionary or through the weight's name. -/
def Op.Plain : Op N → Prop
  | .addEdgesFrom eb _ _ => ∀ e ∈ eb, Attrs.get e.2.2 "origin" = none
  | .addWeightedEdgesFrom _ w _ _ => w ≠ "origin"
  | _ => True

/-- The call passes `x` as `origin` of an edge in a per-edge dictionary, or as a weight with the name `origin`. -/
def Op.Gives (x : Val) : Op N → Prop
  | .addEdgesFrom eb _ _ => ∃ e ∈ eb, Attrs.get e.2.2 "origin" = some x
  | .addWeightedEdgesFrom eb w _ _ => w = "origin" ∧ ∃ e ∈ eb, x = .num e.2.2
  | _ => False

private lemma plain_gives {op : Op N} (h : op.Plain) (x : Val) : ¬ op.Gives x := by
  cases op with
  | addEdgesFrom eb o a =>
    rintro ⟨e, he, hx⟩
    rw [h e he] at hx; cases hx
  | addWeightedEdgesFrom eb w o a =>
    rintro ⟨hw, _⟩
    exact h hw
  | _ => exact id

private lemma wf_nodes (ns : List N) : ∀ {g : SM N}, WF g → WF (ns.foldl addNode g) := by
  induction ns with
  | nil => exact id
  | cons n ns ih => intro g h; exact ih (wf_addNode h n)

private lemma construct_ok {d : Incoming N} {o : String} (ho : o ∈ allowedOrigins) : ∃ g,
    addEdgesFrom (d.nodes.foldl addNode SM.empty) d.edges "unknown" [] = .ok g ∧ WF g ∧
    construct d o = .ok { g with edges := g.edges.map fun e => { e with attrs := e.attrs.set "origin" (.str o) } } := by
  refine ⟨_, addEdgesFrom_ok (by decide), wf_foldl_add (wf_nodes _ wf_empty) _ _, ?_⟩
  unfold construct
  rw [validateOrigin_ok ho, addEdgesFrom_ok (by decide)]
  rfl

private lemma construct_err {d : Incoming N} {o : String} (ho : o ∉ allowedOrigins) :
    construct d o = .error .unknownOrigin := by
  unfold construct
  rw [validateOrigin_err ho]
  rfl

private lemma wf_setOrigin {g : SM N} (h : WF g) (o : Val) :
    WF ({ g with edges := g.edges.map fun e => { e with attrs := e.attrs.set "origin" o } } : SM N) := by
  refine ⟨h.nodesNodup, ?_, ?_⟩
  · have : (SM.pairs { g with edges := g.edges.map fun e => { e with attrs := e.attrs.set "origin" o } }) = g.pairs := by
      simp [SM.pairs, EdgeRec.pair, Function.comp_def]
    rw [this]
    exact h.pairsNodup
  · intro e he
    obtain ⟨f, hf, rfl⟩ := List.mem_map.mp he
    exact h.ends f hf

private lemma copy_spec {g : SM N} (hwf : WF g) (ho : HasOrigins g) : ∃ s, copyGraph g = .ok s ∧
    s.nodes = g.nodes ∧ s.pairs = g.pairs ∧ WF s ∧ (∀ P, OriginsIn P g → OriginsIn P s) ∧
      ∀ e ∈ s.edges, ∃ e' ∈ g.edges, e.pair = e'.pair ∧ ∀ k, e.attrs.get k = e'.attrs.get k := by
  obtain ⟨s, h1, h2, h3, h4⟩ := refill_spec hwf ho id Function.injective_id hwf.ends'
  exact ⟨s, h1, h2, by simpa using h3, h4⟩

private lemma reverse_spec {g : SM N} (hwf : WF g) (ho : HasOrigins g) : ∃ s, reverseGraph g = .ok s ∧
    s.nodes = g.nodes ∧ s.pairs = g.pairs.map Prod.swap ∧ WF s ∧ (∀ P, OriginsIn P g → OriginsIn P s) ∧
      ∀ e ∈ s.edges, ∃ e' ∈ g.edges, e.pair = e'.pair.swap ∧ ∀ k, e.attrs.get k = e'.attrs.get k :=
  refill_spec hwf ho Prod.swap Prod.swap_injective fun p hp => (hwf.ends' p hp).symm

private lemma inv_step {P : Val → Prop} (hP : ∀ o ∈ allowedOrigins, P (.str o)) {g : SM N} (hwf : WF g)
    (ho : OriginsIn P g) {op : Op N} (hp : ∀ x, op.Gives x → P x) :
    WF (step g op) ∧ OriginsIn P (step g op) := by
  unfold step
  cases op with
  | addNode u =>
    exact ⟨wf_addNode hwf u, fun e he => ho e (by
      have he : e ∈ (addNode g u).edges := he
      rwa [addNode_edges] at he)⟩
  | addEdge u v o a =>
    by_cases h : o ∈ allowedOrigins
    · simp only [exec, addEdge_ok h]
      exact ⟨wf_nxAddEdge hwf _ _ _, originsIn_nxAddEdge ho _ _ ⟨_, hP o h, Attrs.get_set_self _ _ _⟩⟩
    · simp only [exec, addEdge_err h]; exact ⟨hwf, ho⟩
  | addEdgesFrom eb o a =>
    by_cases h : o ∈ allowedOrigins
    · simp only [exec, addEdgesFrom_ok h]
      exact ⟨wf_foldl_add hwf _ _,
        originsIn_foldl ho _ ⟨_, hP o h, Attrs.get_set_self _ _ _⟩ (fun e he x hx => hp x ⟨e, he, hx⟩)⟩
    · simp only [exec, addEdgesFrom_err h]; exact ⟨hwf, ho⟩
  | addWeightedEdgesFrom eb w o a =>
    by_cases h : o ∈ allowedOrigins
    · simp only [exec, addWeighted_ok h, addEdgesFrom_ok h]
      refine ⟨wf_foldl_add hwf _ _,
        originsIn_foldl ho _ ⟨_, hP o h, Attrs.get_set_self _ _ _⟩ ?_⟩
      intro e he x hx
      obtain ⟨f, hf, rfl⟩ := List.mem_map.mp he
      by_cases hw : "origin" = w
      · subst hw
        refine hp x ⟨rfl, f, hf, ?_⟩
        simpa [Attrs.get, eq_comm] using hx
      · have hw' : ("origin" == w) = false := by simpa using hw
        simp [Attrs.get, List.lookup_cons, hw'] at hx
    · simp only [exec, addWeighted_err h]; exact ⟨hwf, ho⟩
  | removeEdge u v =>
    exact ⟨wf_removeEdges hwf _, originsIn_removeEdges ho _⟩
  | removeNode u =>
    simp only [exec, removeNode]
    by_cases hu : u ∈ g.nodes
    · rw [if_pos hu]
      refine ⟨⟨hwf.nodesNodup.filter _, hwf.pairsNodup.sublist (List.filter_sublist.map _), fun e he => ?_⟩,
        fun e he => ho e (List.mem_of_mem_filter he)⟩
      have h1 := List.mem_filter.mp he
      have h2 := hwf.ends e h1.1
      simp only [ne_eq, decide_not, Bool.and_eq_true, Bool.not_eq_eq_eq_not, Bool.not_true, decide_eq_false_iff_not] at h1
      simp only [List.mem_filter, ne_eq, decide_not, Bool.not_eq_eq_eq_not, Bool.not_true, decide_eq_false_iff_not]
      exact ⟨⟨h2.1, h1.2.1⟩, h2.2, h1.2.2⟩
    · rw [if_neg hu]; exact ⟨hwf, ho⟩
  | clear => exact ⟨wf_empty, fun e he => by cases he⟩
  | subgraph c =>
    simp only [exec]
    obtain ⟨s, hs, -, h1, h2, -⟩ := subgraphCopy_spec hwf ho.has c
    rw [hs]
    exact ⟨h1, h2 P ho⟩
  | removeBelow t =>
    by_cases hw : Weighted g
    · simp only [exec, removeBelow_ok hw]
      exact ⟨wf_removeEdges hwf _, originsIn_removeEdges ho _⟩
    · simp only [exec, removeBelow_err hw]; exact ⟨hwf, ho⟩
  | tillDag vis =>
    simp only [exec, thresholdTillDag]
    cases hd : g.isDag with
    | true => rw [tillDag_acyclic vis hd]; exact ⟨hwf, ho⟩
    | false =>
      by_cases hw : Weighted g
      · obtain ⟨g', hg', hn, hsub, -⟩ := tillDag_spec vis g.edges.length g hwf hw le_rfl
        rw [hg']
        refine ⟨⟨?_, ?_, ?_⟩, ?_⟩
        · rw [hn]; exact hwf.nodesNodup
        · exact hwf.pairsNodup.sublist (hsub.map _)
        · intro e he; rw [hn]; exact hwf.ends e (hsub.subset he)
        · intro e he; exact ho e (hsub.subset he)
      · rw [tillDag_unweighted vis hd hw]; exact ⟨hwf, ho⟩
  | largest vis =>
    simp only [exec, getLargestSubgraph]
    obtain ⟨r, hr, hc⟩ := largestLoop_spec hwf ho.has (vis.1 g.weak) 0 none
    rw [hr]
    simp only [bind, Except.bind, pure, Except.pure]
    rcases hc with ⟨rfl, -⟩ | ⟨c, -, s, rfl, hs, -⟩
    · exact ⟨hwf, ho⟩
    · obtain ⟨s', hs', -, h1, h2, -⟩ := subgraphCopy_spec hwf ho.has c
      rw [hs] at hs'
      cases hs'
      exact ⟨h1, h2 P ho⟩
  | target n =>
    simp only [exec, getTargetSubgraph]
    by_cases hn : n ∈ g.nodes
    · obtain ⟨c, hc, hnc⟩ := weakComponents_complete hwf.ends' hn
      obtain ⟨c, -, -, s, hs, hcopy⟩ := targetLoop_spec hwf ho.has hn g.weak ⟨c, hc, hnc⟩
      simp only [hn, if_true, hs]
      obtain ⟨s', hs', -, h1, h2, -⟩ := subgraphCopy_spec hwf ho.has c
      rw [hcopy] at hs'
      cases hs'
      exact ⟨h1, h2 P ho⟩
    · simp only [hn, if_false]; exact ⟨hwf, ho⟩
  | construct d o =>
    simp only [exec]
    by_cases h : o ∈ allowedOrigins
    · obtain ⟨g', -, hw, hg⟩ := construct_ok (d := d) h
      rw [hg]
      refine ⟨wf_setOrigin hw _, fun e he => ?_⟩
      obtain ⟨f, hf, rfl⟩ := List.mem_map.mp he
      exact ⟨_, hP o h, Attrs.get_set_self _ _ _⟩
    · rw [construct_err h]; exact ⟨hwf, ho⟩
  | copy =>
    simp only [exec]
    obtain ⟨s, h1, -, -, h2, h3, -⟩ := copy_spec hwf ho.has
    rw [h1]
    exact ⟨h2, h3 P ho⟩
  | reverse =>
    simp only [exec]
    obtain ⟨s, h1, -, -, h2, h3, -⟩ := reverse_spec hwf ho.has
    rw [h1]
    exact ⟨h2, h3 P ho⟩

private lemma inv_run {P : Val → Prop} (hP : ∀ o ∈ allowedOrigins, P (.str o)) {ops : List (Op N)}
    (h : ∀ op ∈ ops, ∀ x, op.Gives x → P x) :
    ∀ {g : SM N}, WF g → OriginsIn P g → WF (run g ops) ∧ OriginsIn P (run g ops) := by
  induction ops with
  | nil => intro g h1 h2; exact ⟨h1, h2⟩
  | cons op ops ih =>
    intro g h1 h2
    obtain ⟨h3, h4⟩ := inv_step hP h1 h2 (h op List.mem_cons_self)
    exact ih (fun o ho => h o (List.mem_cons_of_mem _ ho)) h3 h4

private lemma empty_origins {P : Val → Prop} : OriginsIn P (SM.empty : SM N) := by
  intro e he; simp [SM.empty] at he

/-- Reachable graphs are well-formed and every edge has an origin, so the theorems below apply to them. -/
theorem reachable_wf (ops : List (Op N)) : WF (run SM.empty ops) ∧ HasOrigins (run SM.empty ops) := by
  obtain ⟨h1, h2⟩ := inv_run (P := fun _ => True) (fun _ _ => trivial) (ops := ops) (fun _ _ _ _ => trivial)
    wf_empty empty_origins
  exact ⟨h1, h2.has⟩

/-- The origins are allowed if no call passes an origin through a per-edge dictionary. -/
theorem reachable_origins (ops : List (Op N)) (h : ∀ op ∈ ops, op.Plain) : OriginsOk (run SM.empty ops) :=
  originsOk_iff.mpr (inv_run (fun o ho => ⟨o, ho, rfl⟩) (fun op hop x hx => absurd hx (plain_gives (h op hop) x))
    wf_empty empty_origins).2

/-! ## C01 -/

/-- **C01 (partial).** After every history of calls that do not pass `origin` through a per-edge dictionary
(or as the name of the weight), every edge has one of the three origins, there are no parallel edges and
every edge joins nodes of the graph.
Missing with respect to the full property: histories that do; see `C01_violation` and `C01_all_histories`. -/
theorem C01_origin_invariant_partial (ops : List (Op N)) (h : ∀ op ∈ ops, op.Plain) :
    let g := run SM.empty ops
    (∀ e ∈ g.edges, ∃ o ∈ ["unknown", "learned", "expert"], e.attrs.get "origin" = some (.str o)) ∧
    (g.edges.map (fun e => (e.src, e.dst))).Nodup ∧
    (∀ e ∈ g.edges, e.src ∈ g.nodes ∧ e.dst ∈ g.nodes) :=
  ⟨reachable_origins ops h, (reachable_wf ops).1.pairsNodup, (reachable_wf ops).1.ends⟩

/-- **C01, all histories.** After every history of calls there are no parallel edges, every edge joins nodes of the graph and has an
origin, and this is one of the three allowed ones unless it is a value that some call of the history
passed as `origin` of an edge in a per-edge dictionary, or as a weight with the name `origin`. -/
theorem C01_all_histories (ops : List (Op N)) :
    let g := run SM.empty ops
    (∀ e ∈ g.edges, ∃ x, e.attrs.get "origin" = some x ∧
      ((∃ o ∈ ["unknown", "learned", "expert"], x = .str o) ∨ ∃ op ∈ ops, op.Gives x)) ∧
    (g.edges.map (fun e => (e.src, e.dst))).Nodup ∧
    (∀ e ∈ g.edges, e.src ∈ g.nodes ∧ e.dst ∈ g.nodes) := by
  obtain ⟨h1, h2⟩ := inv_run (P := fun x => (∃ o ∈ ["unknown", "learned", "expert"], x = .str o) ∨ ∃ op ∈ ops, op.Gives x)
    (fun o ho => Or.inl ⟨o, ho, rfl⟩) (ops := ops) (fun op hop x hx => Or.inr ⟨op, hop, hx⟩) wf_empty empty_origins
  refine ⟨fun e he => ?_, h1.pairsNodup, h1.ends⟩
  obtain ⟨x, hx, hg⟩ := h2 e he
  exact ⟨x, hg, hx⟩

example : ∀ op ∈ ([.addEdge 1 2 "expert" [], .addWeightedEdgesFrom [(2, 1, 3)] "weight" "learned" [],
    .addEdge 1 2 "nonsense" [], .tillDag ⟨id, List.Perm.refl⟩, .largest ⟨List.reverse, List.reverse_perm⟩] : List (Op ℕ)), op.Plain := by
  simp [Op.Plain]

/-- **C01, the code violates the unrestricted property**: a 3-tuple edge whose dictionary has an `origin`
key bypasses the validation. -/
theorem C01_violation : ∃ ops : List (Op ℕ), ∃ e ∈ (run SM.empty ops).edges,
    e.attrs.get "origin" = some (.str "bogus") :=
  ⟨[.addEdgesFrom [(1, 2, [("origin", .str "bogus")])] "expert" []], _, List.mem_cons_self, by decide⟩

/-- **C01 (rejection).** Each of the three adding calls raises exactly when the origin is not one of the
three allowed ones, and a raising call leaves the graph as it was. -/
theorem C01_reject (g : SM N) (u v : N) (eb : List (N × N × Attrs)) (wb : List (N × N × ℚ))
    (w o : String) (a : Attrs) :
    (o ∈ ["unknown", "learned", "expert"] ↔ ∃ g', addEdge g u v o a = .ok g') ∧
    (o ∈ ["unknown", "learned", "expert"] ↔ ∃ g', addEdgesFrom g eb o a = .ok g') ∧
    (o ∈ ["unknown", "learned", "expert"] ↔ ∃ g', addWeightedEdgesFrom g wb w o a = .ok g') ∧
    (o ∉ ["unknown", "learned", "expert"] →
      step g (.addEdge u v o a) = g ∧ step g (.addEdgesFrom eb o a) = g ∧
      step g (.addWeightedEdgesFrom wb w o a) = g) := by
  by_cases h : o ∈ allowedOrigins
  · have h' : o ∈ ["unknown", "learned", "expert"] := h
    refine ⟨?_, ?_, ?_, fun hn => absurd h' hn⟩
    · exact ⟨fun _ => ⟨_, addEdge_ok h⟩, fun _ => h'⟩
    · exact ⟨fun _ => ⟨_, addEdgesFrom_ok h⟩, fun _ => h'⟩
    · exact ⟨fun _ => ⟨_, (addWeighted_ok h).trans (addEdgesFrom_ok h)⟩, fun _ => h'⟩
  · have h' : o ∉ ["unknown", "learned", "expert"] := h
    refine ⟨?_, ?_, ?_, fun _ => ⟨?_, ?_, ?_⟩⟩
    · simp only [h', false_iff, addEdge_err h]; rintro ⟨_, h⟩; cases h
    · simp only [h', false_iff, addEdgesFrom_err h]; rintro ⟨_, h⟩; cases h
    · simp only [h', false_iff, addWeighted_err h]; rintro ⟨_, h⟩; cases h
    · simp [step, exec, addEdge_err h]
    · simp [step, exec, addEdgesFrom_err h]
    · simp [step, exec, addWeighted_err h]

/-- **C01 (the last origin wins).** After `add_edge(u, v, origin=o, **a)` there is exactly one edge `u → v`;
its origin is `o`, its other attributes are those of `a` where given and otherwise those it had before; all
other edges are untouched. -/
theorem C01_last_origin_wins {g g' : SM N} (hwf : WF g) {u v : N} {o : String} {a : Attrs}
    (h : addEdge g u v o a = .ok g') :
    (∃ e ∈ g'.edges, e.src = u ∧ e.dst = v ∧ e.attrs.get "origin" = some (.str o) ∧
      (∀ k ≠ "origin", ∀ x, Attrs.get a k = some x → e.attrs.get k = some x) ∧
      (∀ f ∈ g.edges, f.src = u → f.dst = v → ∀ k ≠ "origin", Attrs.get a k = none →
        e.attrs.get k = f.attrs.get k)) ∧
    (g'.edges.filter (fun e => decide (e.src = u ∧ e.dst = v))).length = 1 ∧
    (∀ e : EdgeRec N, ¬ (e.src = u ∧ e.dst = v) → (e ∈ g'.edges ↔ e ∈ g.edges)) := by
  have ho : o ∈ allowedOrigins := by
    by_contra hn; rw [addEdge_err hn] at h; cases h
  rw [addEdge_ok ho] at h
  cases h
  have hpair : ∀ e : EdgeRec N, e.pair = (u, v) ↔ e.src = u ∧ e.dst = v := by
    intro e; simp [EdgeRec.pair]
  have hwf' := wf_nxAddEdge hwf u v (a.set "origin" (.str o))
  have hex : ∃ e ∈ (nxAddEdge g u v (a.set "origin" (.str o))).edges, e.src = u ∧ e.dst = v ∧
      e.attrs.get "origin" = some (.str o) ∧
      (∀ k ≠ "origin", ∀ x, Attrs.get a k = some x → e.attrs.get k = some x) ∧
      (∀ f ∈ g.edges, f.src = u → f.dst = v → ∀ k ≠ "origin", Attrs.get a k = none →
        e.attrs.get k = f.attrs.get k) := by
    by_cases hp : (u, v) ∈ g.pairs
    · obtain ⟨f, hf, hfp⟩ := List.mem_map.mp hp
      refine ⟨⟨f.src, f.dst, f.attrs.update (a.set "origin" (.str o))⟩,
        mem_nxAddEdge.mpr (Or.inr (Or.inl ⟨f, hf, hfp, rfl⟩)), ((hpair f).mp hfp).1,
        ((hpair f).mp hfp).2, ?_, ?_, ?_⟩
      · simp [Attrs.get_update, Attrs.get_set_self]
      · intro k hk x hx
        simp [Attrs.get_update, Attrs.get_set_ne _ _ hk, hx]
      · intro f' hf' h1 h2 k hk hx
        have : f' = f := hwf.inj hf' hf (by rw [hfp]; exact (hpair f').mpr ⟨h1, h2⟩)
        subst this
        simp [Attrs.get_update, Attrs.get_set_ne _ _ hk, hx]
    · refine ⟨⟨u, v, a.set "origin" (.str o)⟩, mem_nxAddEdge.mpr (Or.inr (Or.inr ⟨hp, rfl⟩)), rfl, rfl,
        Attrs.get_set_self _ _ _, ?_, ?_⟩
      · intro k hk x hx
        rw [Attrs.get_set_ne _ _ hk, hx]
      · intro f hf h1 h2
        exact absurd (List.mem_map.mpr ⟨f, hf, (hpair f).mpr ⟨h1, h2⟩⟩) hp
  refine ⟨hex, ?_, ?_⟩
  · obtain ⟨e, he, h1, h2, -⟩ := hex
    set l := (nxAddEdge g u v (a.set "origin" (.str o))).edges with hl
    have hnd : l.Nodup := List.Nodup.of_map _ hwf'.pairsNodup
    have : l.filter (fun e => decide (e.src = u ∧ e.dst = v)) = [e] := by
      have hperm : (l.filter (fun e => decide (e.src = u ∧ e.dst = v))).Perm [e] := by
        rw [List.perm_ext_iff_of_nodup (hnd.filter _) (List.nodup_singleton e)]
        intro f
        simp only [List.mem_filter, decide_eq_true_eq, List.mem_singleton]
        constructor
        · rintro ⟨hf, hf1, hf2⟩
          exact hwf'.inj hf he (by simp [EdgeRec.pair, hf1, hf2, h1, h2])
        · rintro rfl; exact ⟨he, h1, h2⟩
      exact List.perm_singleton.mp hperm
    rw [this]; rfl
  · intro e hne
    rw [mem_nxAddEdge]
    have hne' : e.pair ≠ (u, v) := fun h => hne ((hpair e).mp h)
    constructor
    · rintro (⟨he, _⟩ | ⟨f, hf, hp, rfl⟩ | ⟨_, rfl⟩)
      · exact he
      · exact absurd hp hne'
      · exact absurd ⟨rfl, rfl⟩ hne
    · intro he; exact Or.inl ⟨he, hne'⟩

/-! ## C02 -/

/-- **C02.** On every graph built through the API, `edges_with_origin(o)` lists exactly the edges whose
origin is `o`, without repetition; if no call passed an origin through a per-edge dictionary, the lists for the three origins
together are all edges, without repetition. -/
theorem C02_edges_with_origin (ops : List (Op N)) :
    let g := run SM.empty ops
    (∀ o : String, ∃ l, edgesWithOrigin g (.str o) = .ok l ∧ l.Nodup ∧
      ∀ u v, (u, v) ∈ l ↔ ∃ e ∈ g.edges, e.src = u ∧ e.dst = v ∧ e.attrs.get "origin" = some (.str o)) ∧
    ((∀ op ∈ ops, op.Plain) → ∃ l₁ l₂ l₃, edgesWithOrigin g (.str "unknown") = .ok l₁ ∧
      edgesWithOrigin g (.str "learned") = .ok l₂ ∧ edgesWithOrigin g (.str "expert") = .ok l₃ ∧
      (l₁ ++ l₂ ++ l₃).Perm (g.edges.map (fun e => (e.src, e.dst))) ∧ (l₁ ++ l₂ ++ l₃).Nodup) := by
  intro g
  obtain ⟨hwf, ho⟩ := reachable_wf ops
  change WF g at hwf
  change HasOrigins g at ho
  have hok : ∀ o : String, edgesWithOrigin g (.str o) =
      .ok ((g.edges.filter (fun e => decide (e.attrs.get "origin" = some (.str o)))).map EdgeRec.pair) := by
    intro o
    unfold edgesWithOrigin
    rw [mapM_ok _ (fun e => (e.pair, (e.attrs.get "origin").getD .none))]
    · simp only [bind, Except.bind, pure, Except.pure, List.filter_map, List.map_map]
      congr 1
      have : g.edges.filter ((fun p => decide (p.2 = Val.str o)) ∘
          fun e : EdgeRec N => (e.pair, (e.attrs.get "origin").getD .none)) =
          g.edges.filter (fun e => decide (e.attrs.get "origin" = some (.str o))) := by
        apply List.filter_congr
        intro e he
        obtain ⟨o', h'⟩ := ho e he
        simp [h']
      rw [this]
      rfl
    · intro e he
      obtain ⟨o', h'⟩ := ho e he
      simp [h']
  refine ⟨?_, ?_⟩
  · intro o
    refine ⟨_, hok o, hwf.pairsNodup.sublist (List.filter_sublist.map _), ?_⟩
    intro u v
    simp only [List.mem_map, List.mem_filter, decide_eq_true_eq, EdgeRec.pair, Prod.mk.injEq]
    constructor
    · rintro ⟨e, ⟨he, hg⟩, h1, h2⟩; exact ⟨e, he, h1, h2, hg⟩
    · rintro ⟨e, he, h1, h2, hg⟩; exact ⟨e, ⟨he, hg⟩, h1, h2⟩
  · intro hplain
    replace ho : OriginsOk g := reachable_origins ops hplain
    refine ⟨_, _, _, hok _, hok _, hok _, ?_⟩
    have hperm : ((g.edges.filter (fun e => decide (e.attrs.get "origin" = some (.str "unknown")))).map
        EdgeRec.pair ++ (g.edges.filter (fun e => decide (e.attrs.get "origin" =
        some (.str "learned")))).map EdgeRec.pair ++ (g.edges.filter (fun e => decide (e.attrs.get "origin"
        = some (.str "expert")))).map EdgeRec.pair).Perm g.pairs := by
      rw [← List.map_append, ← List.map_append]
      apply List.Perm.map
      have hnd : g.edges.Nodup := List.Nodup.of_map _ hwf.pairsNodup
      rw [List.perm_ext_iff_of_nodup _ hnd]
      · intro e
        simp only [List.mem_append, List.mem_filter, decide_eq_true_eq]
        constructor
        · tauto
        · intro he
          obtain ⟨o, hol, hg⟩ := ho e he
          simp only [allowedOrigins, List.mem_cons, List.not_mem_nil, or_false] at hol
          rcases hol with rfl | rfl | rfl
          · exact Or.inl (Or.inl ⟨he, hg⟩)
          · exact Or.inl (Or.inr ⟨he, hg⟩)
          · exact Or.inr ⟨he, hg⟩
      · rw [List.nodup_append, List.nodup_append]
        refine ⟨⟨hnd.filter _, hnd.filter _, ?_⟩, hnd.filter _, ?_⟩
        · intro a ha b hb hab
          subst hab
          simp only [List.mem_filter, decide_eq_true_eq] at ha hb
          rw [ha.2] at hb; simp at hb
        · intro a ha b hb hab
          subst hab
          simp only [List.mem_append, List.mem_filter, decide_eq_true_eq] at ha hb
          rcases ha with ha | ha <;> · rw [ha.2] at hb; simp at hb
    exact ⟨hperm, hperm.nodup_iff.mpr hwf.pairsNodup⟩

/-! ## C03 -/

/-- **C03.** On a weighted graph `remove_edges_below_threshold(t)` succeeds, keeps all nodes, and keeps
exactly the edges with `|weight| ≥ t` with unchanged data and order; if some edge has no numeric weight it
raises. -/
theorem C03_threshold_exact {g : SM N} (hwf : WF g) (t : ℚ) :
    (Weighted g → ∃ g', removeEdgesBelowThreshold g t = .ok g' ∧ g'.nodes = g.nodes ∧
      g'.edges.Sublist g.edges ∧
      ∀ e, e ∈ g'.edges ↔ e ∈ g.edges ∧ ∃ w, weightOf e = some w ∧ t ≤ |w|) ∧
    (¬ Weighted g → removeEdgesBelowThreshold g t = .error .typeError) := by
  refine ⟨?_, fun h => removeBelow_err h t⟩
  intro hw
  refine ⟨_, removeBelow_ok hw t, rfl, List.filter_sublist, ?_⟩
  intro e
  rw [removeBelow_edges hwf]
  simp only [List.mem_filter, decide_eq_true_eq]
  constructor
  · rintro ⟨he, hle⟩
    obtain ⟨q, hq⟩ := hw e he
    refine ⟨he, q, hq, ?_⟩
    simpa [aw, hq] using hle
  · rintro ⟨he, q, hq, hle⟩
    exact ⟨he, by simpa [aw, hq] using hle⟩

/-- **C03 (composition).** Thresholding at `t` and then at `s` is thresholding at `max t s`; in particular the
operation is idempotent. -/
theorem C03_threshold_compose {g : SM N} (hwf : WF g) (t s : ℚ) :
    (do let g' ← removeEdgesBelowThreshold g t; removeEdgesBelowThreshold g' s) =
      removeEdgesBelowThreshold g (max t s) ∧
    (do let g' ← removeEdgesBelowThreshold g t; removeEdgesBelowThreshold g' t) =
      removeEdgesBelowThreshold g t := by
  have key : ∀ s, (do let g' ← removeEdgesBelowThreshold g t; removeEdgesBelowThreshold g' s) =
      removeEdgesBelowThreshold g (max t s) := by
    intro s
    by_cases hw : Weighted g
    · rw [removeBelow_ok hw, removeBelow_ok hw]
      simp only [bind, Except.bind]
      have hw' := weighted_removeEdges hw
        (((g.edges.map (fun e => (e.pair, aw e))).filter (fun p => decide (p.2 < t))).map Prod.fst)
      have hwf' := wf_removeEdges hwf
        (((g.edges.map (fun e => (e.pair, aw e))).filter (fun p => decide (p.2 < t))).map Prod.fst)
      rw [removeBelow_ok hw', removeBelow_edges hwf', removeBelow_edges hwf, removeBelow_edges hwf]
      simp only [List.filter_filter]
      congr 2
      apply List.filter_congr
      intro e _
      rw [← Bool.decide_and, decide_eq_decide, max_le_iff, and_comm]
    · rw [removeBelow_err hw, removeBelow_err hw]; rfl
  refine ⟨key s, ?_⟩
  rw [key t, max_self]

/-- A graph satisfying the hypotheses of C03-C06: two edges in a cycle and one isolated node. -/
def exampleGraph : SM ℕ :=
  ⟨[1, 2, 3], [⟨1, 2, [("weight", .num (-3)), ("origin", .str "learned")]⟩,
    ⟨2, 1, [("weight", .num (1/2)), ("origin", .str "expert")]⟩]⟩

example : WF exampleGraph ∧ Weighted exampleGraph ∧ HasOrigins exampleGraph ∧ exampleGraph.isDag = false := by
  refine ⟨⟨by decide, by decide, by decide⟩, ?_, ?_, by decide⟩
  · intro e he
    simp only [exampleGraph, List.mem_cons, List.not_mem_nil, or_false] at he
    rcases he with rfl | rfl
    · exact ⟨-3, rfl⟩
    · exact ⟨1/2, rfl⟩
  · intro e he
    simp only [exampleGraph, List.mem_cons, List.not_mem_nil, or_false] at he
    rcases he with rfl | rfl
    · exact ⟨.str "learned", rfl⟩
    · exact ⟨.str "expert", rfl⟩

/-! ## C04 -/

/-- **C04.** `get_largest_subgraph` never raises; it returns `None` iff there are no edges; otherwise the
result is the subgraph induced on one complete weakly connected component, and no component has more edges; this holds in whatever
order `vis` the components are visited.
`S` in the last clause is any listing of the component of a node `w`. -/
theorem C04_largest_subgraph (vis : Visit (List N)) {g : SM N} (hwf : WF g) (ho : HasOrigins g) :
    ∃ r, getLargestSubgraph vis g = .ok r ∧ (r = none ↔ g.edges = []) ∧
      ∀ s, r = some s →
        (∃ v ∈ g.nodes, Induced g s (WConn g.pairs v)) ∧
        ∀ w ∈ g.nodes, ∀ S : List N, (∀ u, u ∈ S ↔ WConn g.pairs w u) →
          (g.edges.filter (fun e => decide (e.src ∈ S) && decide (e.dst ∈ S))).length ≤
            s.edges.length := by
  obtain ⟨r, hr, hcase⟩ := largestLoop_spec hwf ho (vis.1 g.weak) 0 none
  have hp := vis.2 g.weak
  refine ⟨r, hr, ?_, ?_⟩
  · constructor
    · rintro rfl
      rcases hcase with ⟨-, hle⟩ | ⟨c, -, s, hs, -⟩
      · by_contra hne
        obtain ⟨e, he⟩ := List.exists_mem_of_ne_nil _ hne
        obtain ⟨c, hc, hsc⟩ := weakComponents_complete hwf.ends' (hwf.ends e he).1
        have hpos : 0 < (inner g c).length := by
          apply List.length_pos_of_mem (a := e)
          simp only [inner, List.mem_filter, Bool.and_eq_true, decide_eq_true_eq]
          refine ⟨he, hsc, ?_⟩
          obtain ⟨v, hv, -, rfl⟩ := weakComponents_sound hwf.ends' hc
          rw [mem_component hwf.ends' hv] at hsc ⊢
          exact hsc.tail (Or.inl (List.mem_map.mpr ⟨e, he, rfl⟩))
        have := hle c (hp.mem_iff.2 hc)
        omega
      · cases hs
    · intro he
      rcases hcase with ⟨rfl, -⟩ | ⟨c, -, s, rfl, -, hlt, -⟩
      · rfl
      · simp [inner, he] at hlt
  · rintro s rfl
    rcases hcase with ⟨h, -⟩ | ⟨c, hc, s', hs', hcopy, hlt, hlen, hmax⟩
    · cases h
    · cases hs'
      obtain ⟨v, hv, -, rfl⟩ := weakComponents_sound hwf.ends' (hp.mem_iff.1 hc)
      obtain ⟨s', hs', hind, -⟩ := subgraphCopy_spec hwf ho (component g.nodes g.pairs v)
      rw [hcopy] at hs'
      cases hs'
      refine ⟨⟨v, hv, ?_⟩, ?_⟩
      · refine ⟨?_, ?_, hind.attrs⟩
        · intro u; rw [hind.nodes, mem_component hwf.ends' hv]
        · intro p; rw [hind.pairs, mem_component hwf.ends' hv, mem_component hwf.ends' hv]
      · intro w hw S hS
        obtain ⟨d, hd, hwd⟩ := weakComponents_complete hwf.ends' hw
        have := hmax d (hp.mem_iff.2 hd)
        rw [hlen]
        refine le_trans (le_of_eq ?_) this
        unfold inner
        congr 1
        apply List.filter_congr
        intro e _
        obtain ⟨x, hx, -, rfl⟩ := weakComponents_sound hwf.ends' hd
        rw [mem_component hwf.ends' hx] at hwd
        have : ∀ u, u ∈ S ↔ u ∈ component g.nodes g.pairs x := by
          intro u
          rw [hS, mem_component hwf.ends' hx]
          exact ⟨fun h => hwd.trans h, fun h => hwd.symm.trans h⟩
        simp only [this]

/-! ## C05 -/

/-- **C05.** `get_target_subgraph(n)` raises `NodeNotFound` iff `n` is not a node; otherwise it returns the
subgraph induced on the nodes reachable from `n` ignoring edge directions. -/
theorem C05_target_subgraph {g : SM N} (hwf : WF g) (ho : HasOrigins g) (n : N) :
    (n ∉ g.nodes → getTargetSubgraph g n = .error .nodeNotFound) ∧
    (n ∈ g.nodes → ∃ s, getTargetSubgraph g n = .ok s ∧ Induced g s (WConn g.pairs n)) := by
  constructor
  · intro h; simp [getTargetSubgraph, h]
  · intro h
    obtain ⟨c, hc, hnc⟩ := weakComponents_complete hwf.ends' h
    obtain ⟨c, hc, hnc, s, hs, hcopy⟩ := targetLoop_spec hwf ho h g.weak ⟨c, hc, hnc⟩
    refine ⟨s, by simp only [getTargetSubgraph, h, if_true]; exact hs, ?_⟩
    obtain ⟨s', hs', hind, -⟩ := subgraphCopy_spec hwf ho c
    rw [hcopy] at hs'
    cases hs'
    obtain ⟨v, hv, -, rfl⟩ := weakComponents_sound hwf.ends' hc
    rw [mem_component hwf.ends' hv] at hnc
    have : ∀ u, u ∈ component g.nodes g.pairs v ↔ WConn g.pairs n u := by
      intro u
      rw [mem_component hwf.ends' hv]
      exact ⟨fun h => hnc.symm.trans h, fun h => hnc.trans h⟩
    refine ⟨?_, ?_, hind.attrs⟩
    · intro u; rw [hind.nodes, this]
    · intro p; rw [hind.pairs, this, this]

/-! ## C06 -/

/-- **C06.** `threshold_till_dag` always terminates. On an acyclic graph it changes nothing; on a cyclic graph
with an unweighted edge it raises `TypeError`; on every weighted graph it ends in an acyclic graph with the
same nodes and a subsequence of the edges, every removed edge has `|weight|` at most that of every kept edge,
and if anything was removed then putting back a removed edge of greatest `|weight|` gives a cycle again (the
loop stopped at the first acyclic graph).  All this holds in whatever order `vis` the edges are visited. -/
theorem C06_threshold_till_dag (vis : Visit (EdgeRec N)) {g : SM N} (hwf : WF g) :
    (Acyclic g.pairs → thresholdTillDag vis g = .ok g) ∧
    (¬ Acyclic g.pairs → ¬ Weighted g → thresholdTillDag vis g = .error .typeError) ∧
    (Weighted g → ∃ g', thresholdTillDag vis g = .ok g' ∧ g'.nodes = g.nodes ∧
      g'.edges.Sublist g.edges ∧ Acyclic g'.pairs ∧
      (∀ e ∈ g.edges, e ∉ g'.edges → ∀ f ∈ g'.edges, aw e ≤ aw f) ∧
      (g' = g ∨ ∃ e ∈ g.edges, e ∉ g'.edges ∧ (∀ f ∈ g.edges, f ∉ g'.edges → aw f ≤ aw e) ∧
        ¬ Acyclic (e.pair :: g'.pairs))) := by
  refine ⟨?_, ?_, ?_⟩
  · intro h; exact tillDag_acyclic vis ((SM.isDag_iff hwf).mpr h) _
  · intro h hw
    refine tillDag_unweighted vis ?_ hw _
    cases hd : g.isDag with
    | false => rfl
    | true => exact absurd ((SM.isDag_iff hwf).mp hd) h
  · intro hw; exact tillDag_spec vis _ g hwf hw le_rfl

/-! ## C90 -/

/-- The value that the last of the given edges `p` with an attribute `k` has for it. -/
def lastGiven (eb : List (N × N × Attrs)) (p : N × N) (k : String) : Option Val :=
  (eb.reverse.filter fun e => decide ((e.1, e.2.1) = p)).findSome? fun e => Attrs.get e.2.2 k

private lemma mem_foldl_addNode (ns : List N) (g : SM N) (v : N) :
    v ∈ (ns.foldl addNode g).nodes ↔ v ∈ g.nodes ∨ v ∈ ns := by
  induction ns generalizing g with
  | nil => simp
  | cons n ns ih =>
    rw [List.foldl_cons, ih, mem_addNode]
    simp only [List.mem_cons]
    tauto

private lemma foldl_addNode_edges (ns : List N) (g : SM N) : (ns.foldl addNode g).edges = g.edges := by
  induction ns generalizing g with
  | nil => rfl
  | cons n ns ih => rw [List.foldl_cons, ih, addNode_edges]

private lemma foldl_add_spec (a : Attrs) (eb : List (N × N × Attrs)) {g : SM N} (hwf : WF g) :
    let g' := eb.foldl (fun g e => nxAddEdge g e.1 e.2.1 (a.update e.2.2)) g
    (∀ v, v ∈ g'.nodes ↔ v ∈ g.nodes ∨ ∃ e ∈ eb, v = e.1 ∨ v = e.2.1) ∧
    (∀ p, p ∈ g'.pairs ↔ p ∈ g.pairs ∨ ∃ e ∈ eb, p = (e.1, e.2.1)) ∧
    ∀ e ∈ g'.edges, ∀ k, a.get k = none → e.attrs.get k = (lastGiven eb e.pair k).or
      ((g.edges.find? fun f => decide (f.pair = e.pair)).bind fun f => f.attrs.get k) := by
  induction eb generalizing g with
  | nil =>
    refine ⟨by simp, by simp, fun e he k _ => ?_⟩
    have : (g.edges.find? fun f => decide (f.pair = e.pair)) = some e := by
      cases hf : g.edges.find? fun f => decide (f.pair = e.pair) with
      | none =>
        have := List.find?_eq_none.mp hf e he
        simp at this
      | some f =>
        have h1 := List.find?_some hf
        have h2 := List.mem_of_find?_eq_some hf
        rw [hwf.inj h2 he (by simpa using h1)]
    rw [this]
    rfl
  | cons d eb ih =>
    have hwf' := wf_nxAddEdge hwf d.1 d.2.1 (a.update d.2.2)
    obtain ⟨h1, h2, h3⟩ := ih hwf'
    rw [List.foldl_cons]
    refine ⟨fun v => ?_, fun p => ?_, fun e he k hk => ?_⟩
    · rw [h1, nxAddEdge_nodes, mem_addNode, mem_addNode]
      simp only [List.mem_cons, exists_eq_or_imp, or_assoc]
    · rw [h2]
      have : p ∈ (nxAddEdge g d.1 d.2.1 (a.update d.2.2)).pairs ↔ p ∈ g.pairs ∨ p = (d.1, d.2.1) := by
        by_cases hp : (d.1, d.2.1) ∈ g.pairs
        · rw [nxAddEdge_pairs_old _ hp]
          exact ⟨Or.inl, fun h => h.elim id fun h => h ▸ hp⟩
        · rw [nxAddEdge_pairs_new _ hp]; simp
      rw [this]
      simp only [List.mem_cons, exists_eq_or_imp]
      tauto
    · rw [h3 e he k hk]
      have hlast : lastGiven (d :: eb) e.pair k = (lastGiven eb e.pair k).or
          (if (d.1, d.2.1) = e.pair then Attrs.get d.2.2 k else none) := by
        unfold lastGiven
        rw [List.reverse_cons, List.filter_append, List.findSome?_append]
        by_cases hd : (d.1, d.2.1) = e.pair
        · simp [hd]
        · simp [hd]
      rw [hlast, Option.or_assoc]
      congr 1
      -- the edge after the first step
      by_cases hd : (d.1, d.2.1) = e.pair
      · rw [if_pos hd]
        cases hf : g.edges.find? fun f => decide (f.pair = e.pair) with
        | none =>
          have hnot : (d.1, d.2.1) ∉ g.pairs := by
            intro hm
            obtain ⟨f, hfm, hfp⟩ := List.mem_map.mp hm
            have := List.find?_eq_none.mp hf f hfm
            simp [hfp, hd] at this
          have : (nxAddEdge g d.1 d.2.1 (a.update d.2.2)).edges = g.edges ++ [⟨d.1, d.2.1, a.update d.2.2⟩] := by
            unfold nxAddEdge
            simp only [hnot, if_false, addNode_edges]
          rw [this, List.find?_append, hf]
          have hd' : d.1 = e.src ∧ d.2.1 = e.dst := by simpa [EdgeRec.pair] using hd
          simp [EdgeRec.pair, hd', Attrs.get_update, hk]
        | some f =>
          have hfm := List.mem_of_find?_eq_some hf
          have hfp : f.pair = e.pair := by simpa using List.find?_some hf
          have hold : (d.1, d.2.1) ∈ g.pairs := List.mem_map.mpr ⟨f, hfm, hfp.trans hd.symm⟩
          have hmem : (⟨f.src, f.dst, f.attrs.update (a.update d.2.2)⟩ : EdgeRec N) ∈
              (nxAddEdge g d.1 d.2.1 (a.update d.2.2)).edges :=
            mem_nxAddEdge.mpr (Or.inr (Or.inl ⟨f, hfm, hfp.trans hd.symm, rfl⟩))
          have : ((nxAddEdge g d.1 d.2.1 (a.update d.2.2)).edges.find? fun f => decide (f.pair = e.pair)) =
              some ⟨f.src, f.dst, f.attrs.update (a.update d.2.2)⟩ := by
            cases hf' : (nxAddEdge g d.1 d.2.1 (a.update d.2.2)).edges.find? fun f => decide (f.pair = e.pair) with
            | none =>
              have := List.find?_eq_none.mp hf' _ hmem
              exact absurd (by simpa [EdgeRec.pair] using hfp) this
            | some f' =>
              have h1 : f'.pair = e.pair := by simpa using List.find?_some hf'
              rw [hwf'.inj (List.mem_of_find?_eq_some hf') hmem (h1.trans hfp.symm)]
          rw [this]
          simp only [Option.bind_some, Attrs.get_update, hk, Option.or_none]
      · rw [if_neg hd, Option.none_or]
        congr 1
        unfold nxAddEdge
        split
        · simp only [addNode_edges]
          have : ∀ l : List (EdgeRec N), ((l.map fun f => if f.pair = (d.1, d.2.1) then
              { f with attrs := f.attrs.update (a.update d.2.2) } else f).find? fun f => decide (f.pair = e.pair)) =
              l.find? fun f => decide (f.pair = e.pair) := by
            intro l
            induction l with
            | nil => rfl
            | cons f l ih =>
              rw [List.map_cons, List.find?_cons, List.find?_cons]
              by_cases hfd : f.pair = (d.1, d.2.1)
              · have h1 : ¬ f.pair = e.pair := fun h => hd (hfd.symm.trans h)
                have h2 : decide (EdgeRec.pair (if f.pair = (d.1, d.2.1) then
                    { f with attrs := f.attrs.update (a.update d.2.2) } else f) = e.pair) = false := by
                  rw [if_pos hfd]
                  exact decide_eq_false h1
                rw [h2, decide_eq_false h1]
                exact ih
              · rw [if_neg hfd, ih]
          exact this _
        · simp only [addNode_edges, List.find?_append]
          have : decide (EdgeRec.pair ⟨d.1, d.2.1, a.update d.2.2⟩ = e.pair) = false := decide_eq_false hd
          simp [this]

/-- **C90 (construction).** `StructureModel(data, origin=o)` raises iff `o` is not an allowed origin; otherwise its nodes are the given
nodes and the ends of the given edges, its edges the given edges, each once; every edge has the origin `o`, also
if the data has another one; every other attribute is the one given last for this edge. -/
theorem C90_construct (d : Incoming N) (o : String) :
    (o ∉ ["unknown", "learned", "expert"] → construct d o = .error .unknownOrigin) ∧
    (o ∈ ["unknown", "learned", "expert"] → ∃ g, construct d o = .ok g ∧ WF g ∧
      (∀ v, v ∈ g.nodes ↔ v ∈ d.nodes ∨ ∃ e ∈ d.edges, v = e.1 ∨ v = e.2.1) ∧
      (∀ u v, (u, v) ∈ g.pairs ↔ ∃ a, (u, v, a) ∈ d.edges) ∧
      ∀ e ∈ g.edges, e.attrs.get "origin" = some (.str o) ∧
        ∀ k ≠ "origin", e.attrs.get k = lastGiven d.edges e.pair k) := by
  refine ⟨construct_err, fun ho => ?_⟩
  obtain ⟨g, h1, hwf, h2⟩ := construct_ok (d := d) ho
  refine ⟨_, h2, wf_setOrigin hwf _, ?_⟩
  rw [addEdgesFrom_ok (by decide)] at h1
  cases h1
  obtain ⟨k1, k2, k3⟩ := foldl_add_spec ((Attrs.set [] "origin" (.str "unknown"))) d.edges (wf_nodes d.nodes wf_empty)
  refine ⟨fun v => ?_, fun u v => ?_, fun e he => ?_⟩
  · refine (k1 v).trans ?_
    rw [mem_foldl_addNode]
    simp [SM.empty]
  · have hp : ∀ g : SM N, SM.pairs { g with edges := g.edges.map fun e => { e with attrs := e.attrs.set "origin" (.str o) } } =
        g.pairs := by
      intro g
      simp [SM.pairs, EdgeRec.pair, Function.comp_def]
    rw [hp, k2]
    simp only [SM.pairs, foldl_addNode_edges, SM.empty, List.map_nil, List.not_mem_nil, false_or, Prod.mk.injEq]
    constructor
    · rintro ⟨e, he, rfl, rfl⟩
      exact ⟨e.2.2, he⟩
    · rintro ⟨a, ha⟩
      exact ⟨_, ha, rfl, rfl⟩
  · obtain ⟨f, hf, rfl⟩ := List.mem_map.mp he
    refine ⟨Attrs.get_set_self _ _ _, fun k hk => ?_⟩
    have := k3 f hf k (by rw [Attrs.get_set_ne _ _ hk]; rfl)
    rw [Attrs.get_set_ne _ _ hk, this]
    simp [foldl_addNode_edges, SM.empty, EdgeRec.pair]

/-- What a graph created from nodes `ns` and edges `eb` with the origin `o` has to be: its nodes are the given nodes and the ends of the
given edges, its edges the given ones, each once, all with the origin `o` and every other attribute as given last. -/
def Built (g : SM N) (o : String) (ns : List N) (eb : List (N × N × Attrs)) : Prop :=
  WF g ∧ (∀ v, v ∈ g.nodes ↔ v ∈ ns ∨ ∃ e ∈ eb, v = e.1 ∨ v = e.2.1) ∧ (∀ u v, (u, v) ∈ g.pairs ↔ ∃ a, (u, v, a) ∈ eb) ∧
  ∀ e ∈ g.edges, e.attrs.get "origin" = some (.str o) ∧ ∀ k ≠ "origin", e.attrs.get k = lastGiven eb e.pair k

/-- **C90 (construction, by kind of data).** From an edge list: its edges with their attributes. From a graph: also its nodes without
edges. From a dict of lists: the keys and the listed neighbours, no attribute besides the origin. -/
theorem C90_construct_kinds {o : String} (ho : o ∈ ["unknown", "learned", "expert"]) :
    (∀ eb : List (N × N × Attrs), ∃ g, construct (.edgeList eb) o = .ok g ∧ Built g o [] eb) ∧
    (∀ (ns : List N) (eb : List (N × N × Attrs)), ∃ g, construct (.graph ns eb) o = .ok g ∧ Built g o ns eb) ∧
    (∀ d : List (N × List N), ∃ g, construct (.lists d) o = .ok g ∧ WF g ∧
      (∀ v, v ∈ g.nodes ↔ ∃ q ∈ d, v = q.1 ∨ v ∈ q.2) ∧ (∀ u v, (u, v) ∈ g.pairs ↔ ∃ l, (u, l) ∈ d ∧ v ∈ l) ∧
      ∀ e ∈ g.edges, e.attrs.get "origin" = some (.str o) ∧ ∀ k ≠ "origin", e.attrs.get k = none) := by
  refine ⟨fun eb => (C90_construct _ o).2 ho, fun ns eb => (C90_construct _ o).2 ho, fun d => ?_⟩
  obtain ⟨g, h1, h2, h3, h4, h5⟩ := (C90_construct (.lists d) o).2 ho
  refine ⟨g, h1, h2, fun v => ?_, fun u v => ?_, fun e he => ⟨(h5 e he).1, fun k hk => ?_⟩⟩
  · rw [h3]
    simp only [Incoming.nodes, Incoming.edges, List.mem_map, List.mem_flatMap]
    constructor
    · rintro (⟨q, hq, rfl⟩ | ⟨e, ⟨q, hq, w, hw, rfl⟩, rfl | rfl⟩)
      · exact ⟨q, hq, Or.inl rfl⟩
      · exact ⟨q, hq, Or.inl rfl⟩
      · exact ⟨q, hq, Or.inr hw⟩
    · rintro ⟨q, hq, rfl | hv⟩
      · exact Or.inl ⟨q, hq, rfl⟩
      · exact Or.inr ⟨_, ⟨q, hq, v, hv, rfl⟩, Or.inr rfl⟩
  · rw [h4]
    simp only [Incoming.edges, List.mem_map, List.mem_flatMap, Prod.mk.injEq]
    constructor
    · rintro ⟨a, q, hq, w, hw, rfl, rfl, -⟩
      exact ⟨q.2, hq, hw⟩
    · rintro ⟨l, hl, hv⟩
      exact ⟨[], _, hl, v, hv, rfl, rfl, rfl⟩
  · rw [(h5 e he).2 k hk, lastGiven, List.findSome?_eq_none_iff]
    intro f hf
    have hm := List.mem_reverse.1 (List.mem_of_mem_filter hf)
    simp only [Incoming.edges, List.mem_map, List.mem_flatMap] at hm
    obtain ⟨q, -, w, -, rfl⟩ := hm
    rfl

/-- **C90 (arrays).** From a square array: the nodes are `0, ..., n - 1`, there is an edge from `i` to `j` iff the entry in row `i` and
column `j` is not zero, its weight is this entry, and it has the given origin and no other attribute. -/
theorem C90_construct_array {o : String} (ho : o ∈ ["unknown", "learned", "expert"]) (A : List (List ℚ))
    (hA : ∀ r ∈ A, r.length = A.length) :
    ∃ g, construct (.array A) o = .ok g ∧ WF g ∧ (∀ v, v ∈ g.nodes ↔ v < A.length) ∧
      (∀ i j, (i, j) ∈ g.pairs ↔ ∃ x, (A[i]?.bind fun r => r[j]?) = some x ∧ x ≠ 0) ∧
      ∀ e ∈ g.edges, e.attrs.get "origin" = some (.str o) ∧
        (∃ x, (A[e.src]?.bind fun r => r[e.dst]?) = some x ∧ e.attrs.get "weight" = some (.num x)) ∧
        ∀ k, k ≠ "origin" → k ≠ "weight" → e.attrs.get k = none := by
  obtain ⟨g, h1, h2, h3, h4, h5⟩ := (C90_construct (.array A) o).2 ho
  have hmem : ∀ i j a, (i, j, a) ∈ (Incoming.array A).edges ↔
      ∃ x, (A[i]?.bind fun r => r[j]?) = some x ∧ x ≠ 0 ∧ a = [("weight", .num x)] := by
    intro i j a
    simp only [Incoming.array, Incoming.edges, List.mem_flatMap, List.mem_map, List.mem_filter, decide_eq_true_eq, Prod.mk.injEq]
    constructor
    · rintro ⟨⟨r, i'⟩, hr, ⟨x, j'⟩, ⟨hx, hx0⟩, h1, h2, h3⟩
      simp only at h1 h2 h3 hx0
      subst h1 h2
      rw [List.mem_zipIdx_iff_getElem?] at hr hx
      simp only at hr hx
      exact ⟨x, by rw [hr]; exact hx, hx0, h3.symm⟩
    · rintro ⟨x, hx, hx0, rfl⟩
      obtain ⟨r, hr, hx⟩ := Option.bind_eq_some_iff.mp hx
      exact ⟨(r, i), List.mem_zipIdx_iff_getElem?.mpr hr, (x, j), ⟨List.mem_zipIdx_iff_getElem?.mpr hx, hx0⟩, rfl, rfl, rfl⟩
  refine ⟨g, h1, h2, fun v => ?_, fun i j => ?_, fun e he => ⟨(h5 e he).1, ?_⟩⟩
  · rw [h3]
    constructor
    · rintro (h | ⟨⟨i, j, a⟩, he, hv⟩)
      · exact List.mem_range.mp h
      · obtain ⟨x, hx, -, -⟩ := (hmem i j a).mp he
        obtain ⟨r, hr, hx⟩ := Option.bind_eq_some_iff.mp hx
        obtain ⟨hi, rfl⟩ := List.getElem?_eq_some_iff.mp hr
        obtain ⟨hj, -⟩ := List.getElem?_eq_some_iff.mp hx
        rw [hA _ (List.getElem_mem hi)] at hj
        rcases hv with rfl | rfl
        · exact hi
        · exact hj
    · intro hv
      exact Or.inl (List.mem_range.mpr hv)
  · rw [h4]
    constructor
    · rintro ⟨a, ha⟩
      obtain ⟨x, hx, h0, -⟩ := (hmem i j a).mp ha
      exact ⟨x, hx, h0⟩
    · rintro ⟨x, hx, h0⟩
      exact ⟨_, (hmem i j _).mpr ⟨x, hx, h0, rfl⟩⟩
  · have hp : (e.src, e.dst) ∈ g.pairs := List.mem_map.mpr ⟨e, he, rfl⟩
    obtain ⟨a, ha⟩ := (h4 _ _).mp hp
    obtain ⟨x, hx, h0, rfl⟩ := (hmem _ _ _).mp ha
    -- all given edges of this pair carry the same dictionary
    have hall : ∀ f ∈ ((Incoming.array A).edges.reverse.filter fun f => decide ((f.1, f.2.1) = e.pair)),
        f.2.2 = [("weight", .num x)] := by
      rintro ⟨i, j, a⟩ hf
      obtain ⟨hf1, hf2⟩ := List.mem_filter.mp hf
      have hf3 : i = e.src ∧ j = e.dst := by simpa [EdgeRec.pair] using hf2
      obtain ⟨y, hy, -, rfl⟩ := (hmem i j a).mp (List.mem_reverse.mp hf1)
      rw [hf3.1, hf3.2, hx] at hy
      cases hy
      rfl
    have hne : ((Incoming.array A).edges.reverse.filter fun f => decide ((f.1, f.2.1) = e.pair)) ≠ [] := by
      apply List.ne_nil_of_mem (a := (e.src, e.dst, [("weight", .num x)]))
      exact List.mem_filter.mpr ⟨List.mem_reverse.mpr ha, by simp [EdgeRec.pair]⟩
    refine ⟨⟨x, hx, ?_⟩, fun k hk hw => ?_⟩
    · rw [(h5 e he).2 "weight" (by decide), lastGiven]
      obtain ⟨f, l, hl⟩ := List.exists_cons_of_ne_nil hne
      rw [hl, List.findSome?_cons, hall f (by rw [hl]; exact List.mem_cons_self)]
      rfl
    · rw [(h5 e he).2 k hk, lastGiven, List.findSome?_eq_none_iff]
      intro f hf
      rw [hall f hf]
      have : (k == "weight") = false := by simpa using hw
      simp [Attrs.get, List.lookup_cons, this]

example : ∃ g, construct (.array [[0, 3], [-1/2, 0]]) "learned" = .ok g ∧ g.nodes = [0, 1] ∧ g.pairs = [(0, 1), (1, 0)] ∧
    g.edges.map (fun e => e.attrs.get "weight") = [some (.num 3), some (.num (-1/2))] :=
  ⟨_, rfl, by decide +kernel, by decide +kernel, by decide +kernel⟩

/-- **C90 (removing nodes and taking subgraphs).** `remove_node(u)` raises iff `u` is not a node; otherwise the result is the rest of the
graph, attributes included. `subgraph(c).copy()` is the part of the graph on the nodes in `c`, attributes included. -/
theorem C90_remove_subgraph {g : SM N} (hwf : WF g) (ho : HasOrigins g) (u : N) (c : List N) :
    (u ∉ g.nodes → removeNode g u = .error .nodeNotFound) ∧
    (u ∈ g.nodes → ∃ s, removeNode g u = .ok s ∧ Induced g s (· ≠ u)) ∧
    ∃ s, subgraphCopy g c = .ok s ∧ Induced g s (· ∈ c) := by
  refine ⟨fun hu => if_neg hu, fun hu => ⟨_, if_pos hu, ⟨fun v => ?_, fun p => ?_, fun e he => ?_⟩⟩, ?_⟩
  · simp
  · simp only [SM.pairs, List.mem_map, List.mem_filter, Bool.and_eq_true, decide_eq_true_eq]
    constructor
    · rintro ⟨e, ⟨he, h1, h2⟩, rfl⟩
      exact ⟨⟨e, he, rfl⟩, h1, h2⟩
    · rintro ⟨⟨e, he, rfl⟩, h1, h2⟩
      exact ⟨e, ⟨he, h1, h2⟩, rfl⟩
  · exact ⟨e, List.mem_of_mem_filter he, rfl, fun _ => rfl⟩
  · obtain ⟨s, h1, h2, -⟩ := subgraphCopy_spec hwf ho c
    exact ⟨s, h1, h2⟩

/-- **C90 (removing edges).** Removing an edge leaves the nodes and exactly the other edges, attributes included; the edge in the other direction
stays. -/
theorem C90_remove_edge (g : SM N) (u v : N) :
    ∃ s, exec g (.removeEdge u v) = .ok s ∧ s.nodes = g.nodes ∧ ∀ e, e ∈ s.edges ↔ e ∈ g.edges ∧ ¬ (e.src = u ∧ e.dst = v) := by
  refine ⟨_, rfl, rfl, fun e => ?_⟩
  rw [mem_removeEdges, List.mem_singleton, EdgeRec.pair, Prod.mk.injEq]

example : ∃ s, exec (run SM.empty ([.addEdge 1 2 "expert" [], .addEdge 2 1 "learned" []] : List (Op ℕ))) (.removeEdge 1 2) = .ok s ∧
    s.pairs = [(2, 1)] := ⟨_, rfl, by decide⟩

/-- **C90 (copies).** `copy()` and `to_directed()` give a graph with the same nodes, edges and attributes, origins included; `reverse()`
one with all edges reversed and the same attributes. They never raise. -/
theorem C90_copy_reverse {g : SM N} (hwf : WF g) (ho : HasOrigins g) :
    (∃ s, copyGraph g = .ok s ∧ s.nodes = g.nodes ∧ s.pairs = g.pairs ∧ WF s ∧
      ∀ e ∈ s.edges, ∃ e' ∈ g.edges, e.pair = e'.pair ∧ ∀ k, e.attrs.get k = e'.attrs.get k) ∧
    (∃ s, reverseGraph g = .ok s ∧ s.nodes = g.nodes ∧ s.pairs = g.pairs.map Prod.swap ∧ WF s ∧
      ∀ e ∈ s.edges, ∃ e' ∈ g.edges, e.pair = e'.pair.swap ∧ ∀ k, e.attrs.get k = e'.attrs.get k) := by
  obtain ⟨s, h1, h2, h3, h4, -, h5⟩ := copy_spec hwf ho
  obtain ⟨s', k1, k2, k3, k4, -, k5⟩ := reverse_spec hwf ho
  exact ⟨⟨s, h1, h2, h3, h4, h5⟩, s', k1, k2, k3, k4, k5⟩

/-- **C90, creating from a `StructureModel` loses the origins.** `StructureModel(sm)` marks all edges as unknown. -/
theorem C90_construct_resets : ∃ ops : List (Op ℕ), ∃ g,
    (∃ e ∈ (run SM.empty ops).edges, e.attrs.get "origin" = some (.str "expert")) ∧
    construct (.graph (run SM.empty ops).nodes ((run SM.empty ops).edges.map fun e => (e.src, e.dst, e.attrs))) "unknown" = .ok g ∧
    ∀ e ∈ g.edges, e.attrs.get "origin" = some (.str "unknown") := by
  obtain ⟨g, h1, _, _, _, h2⟩ := (C90_construct (.graph (run SM.empty ([.addEdge 1 2 "expert" []] : List (Op ℕ))).nodes
    ((run SM.empty ([.addEdge 1 2 "expert" []] : List (Op ℕ))).edges.map fun e => (e.src, e.dst, e.attrs))) "unknown").2 (by decide)
  refine ⟨[.addEdge 1 2 "expert" []], g, ?_, h1, fun e he => (h2 e he).1⟩
  decide

example : construct (.lists [(1, [2, 3]), (2, [3])] : Incoming ℕ) "learned" = .ok ⟨[1, 2, 3],
    [⟨1, 2, [("origin", .str "learned"), ("origin", .str "unknown")]⟩,
     ⟨1, 3, [("origin", .str "learned"), ("origin", .str "unknown")]⟩,
     ⟨2, 3, [("origin", .str "learned"), ("origin", .str "unknown")]⟩]⟩ := by decide

/-- From a graph with an attribute and a node without edges; the origin in the data is replaced. -/
example : ∃ g, construct (.graph [1, 2, 3] [(1, 2, [("weight", .str "w"), ("origin", .str "expert")])] : Incoming ℕ) "learned" = .ok g ∧
    g.nodes = [1, 2, 3] ∧ g.pairs = [(1, 2)] ∧ (∀ e ∈ g.edges, e.attrs.get "weight" = some (.str "w")) ∧
    ∀ e ∈ g.edges, e.attrs.get "origin" = some (.str "learned") := ⟨_, rfl, by decide, by decide, by decide, by decide⟩

end Verif.Structure
