import Verif.Sklearn.Facts

/-!
# Fitting: the target has no children, nothing leaks between fits, `enforce_dag` (C65, C81)
-/

namespace Verif.Sklearn

open Verif.Str Verif.Pytorch
open Verif.Notears (Tabu Minimizer RespectsBounds Permitted)

/-- The arguments of a call are well formed. -/
def Call.WF (c : Call) (e : Est) (h : Heap) : Prop :=
  WellFormed c.cols c.yname (h.tables.getD c.x []) (e.params.schema.map fun r => h.schemas.getD r [])

/-- `f` is what a successful `fit` leaves. -/
def Fits (ext : Ext) (e : Est) (h : Heap) (c : Call) (f : Fit) : Prop :=
  (baseFit ext e h c).2 = ({ e with fitted := some f }, none)

theorem fits_iff {ext : Ext} {e : Est} {h : Heap} {c : Call} {f : Fit} :
    Fits ext e h c f ↔ pureFit ext e.params e.targetType (e.params.schema.map fun r => h.schemas.getD r [])
      (e.params.tabuParents.map fun r => h.lists.getD r []) c.cols (h.tables.getD c.x []) (h.series.getD c.y []) c.yname = .ok f := by
  unfold Fits
  rw [(baseFit_spec ext e h c).2]
  cases pureFit ext e.params e.targetType (e.params.schema.map fun r => h.schemas.getD r [])
      (e.params.tabuParents.map fun r => h.lists.getD r []) c.cols (h.tables.getD c.x []) (h.series.getD c.y []) c.yname with
  | error err => simp
  | ok f' => simp

/-- `fit` succeeds exactly if it leaves something. -/
theorem baseFit_outcome (ext : Ext) (e : Est) (h : Heap) (c : Call) :
    ((baseFit ext e h c).2.2 = none ∧ ∃ f, Fits ext e h c f) ∨ (∃ err F, (baseFit ext e h c).2 = (e.update F, some err)) := by
  have := (baseFit_spec ext e h c).2
  revert this
  cases hp : pureFit ext e.params e.targetType (e.params.schema.map fun r => h.schemas.getD r [])
      (e.params.tabuParents.map fun r => h.lists.getD r []) c.cols (h.tables.getD c.x []) (h.series.getD c.y []) c.yname with
  | error err => intro h; exact Or.inr ⟨err, _, h⟩
  | ok f => intro h; exact Or.inl ⟨by rw [h], f, h⟩

section
variable {ext : Ext} {e : Est} {h : Heap} {c : Call} {f : Fit}

theorem mem_parentsValue (parents : Option (List Str)) (target : Str) : ∃ l, parentsValue parents true target = some l ∧ target ∈ l := by
  unfold parentsValue
  cases parents with
  | none => exact ⟨[target], rfl, by simp⟩
  | some l =>
    by_cases ht : target ∈ l
    · exact ⟨l, by simp [ht], ht⟩
    · exact ⟨l ++ [target], by simp [ht], by simp⟩

/-- The graph of a successful fit is that of `from_pandas`, except for edges removed to get rid of cycles. -/
theorem fits_graph (horder : ∀ es, (ext.order es).Perm es) (hw : c.WF e h) (hf : Fits ext e h c f) :
    ∃ sc a g, e.targetType = some a ∧
      scaleValues ext.std e.params.standardize e.targetType (schemaValue (e.params.schema.map fun r => h.schemas.getD r []) c.cols) c.cols
        (h.tables.getD c.x []) (h.series.getD c.y []) = .ok sc ∧
      fromPandas ext.minimize ext.init ext.fuel ext.order (joined c.cols f.target sc.X sc.y)
        (learnArgs e.params (dictSet (schemaValue (e.params.schema.map fun r => h.schemas.getD r []) c.cols) f.target a)
          (parentsValue (e.params.tabuParents.map fun r => h.lists.getD r []) e.params.dependentTarget f.target)) = .ok g ∧
      f.graph = (if e.params.enforceDag then { g with edges := tillDag g.edges.length g.edges } else g) ∧
      f.features = c.cols ∧ f.target = targetName c.yname ∧ f.contIdx = sc.contIdx ∧ f.ssX = sc.ssX ∧ f.ssY = sc.ssY ∧
      (joined c.cols f.target sc.X sc.y).cols.Nodup ∧ (joined c.cols f.target sc.X sc.y).values.WF ∧
      ((dictSet (schemaValue (e.params.schema.map fun r => h.schemas.getD r []) c.cols) f.target a).map Prod.fst).Nodup ∧
      h.tables.getD c.x [] ≠ [] ∧ (h.series.getD c.y []).length = (h.tables.getD c.x []).length := by
  obtain ⟨sc, a, g, h1, h2, h3, h4, h5, h6, h7, h8, h9, h10⟩ := pureFit_ok (fits_iff.1 hf) hw
  subst h7
  exact ⟨sc, a, g, h5, h4, h6, rfl, rfl, rfl, rfl, rfl, rfl, h8, h9, h10, h1, h3⟩

theorem fits_ready (hw : c.WF e h) (hf : Fits ext e h c f) : f.ready = true := by
  obtain ⟨sc, a, g, h1, h2, h3, h4, h5, h6, h7, h8, h9, h10⟩ := pureFit_ok (fits_iff.1 hf) hw
  subst h7
  rfl

theorem graph_edges_subset {p : Params} {g : Learned Str} :
    ∀ d ∈ (if p.enforceDag then { g with edges := tillDag g.edges.length g.edges } else g).edges,
      d ∈ g.edges ∨ (¬ (g.edges.map fun e => (e.src, e.dst)).Nodup) := by
  intro d hd
  by_cases hn : (g.edges.map fun e => (e.src, e.dst)).Nodup
  · left
    split_ifs at hd
    · exact (tillDag_spec _ _ le_rfl hn).1.subset hd
    · exact hd
  · exact Or.inr hn

/-- The pairs of a learned graph are different. -/
theorem fromPandas_pairs {minimize : Minimizer ℝ} {init : ℕ → ℝ} {fuel : ℕ} {order : Visit} {X : Table} {x : Args Str}
    {g : Learned Str} (h : fromPandas minimize init fuel order X x = .ok g) : (g.edges.map fun e => (e.src, e.dst)).Nodup := by
  have key : ∀ (l acc : List (LEdge Str)), (acc.map fun e => (e.src, e.dst)).Nodup →
      ((l.foldl addLEdge acc).map fun e => (e.src, e.dst)).Nodup := by
    intro l
    induction l with
    | nil => intro acc h; exact h
    | cons d l ih =>
      intro acc hacc
      rw [List.foldl_cons]
      refine ih _ ?_
      unfold addLEdge
      split_ifs with hd
      · have : (acc.map fun x => if x.src = d.src ∧ x.dst = d.dst then d else x).map (fun e => (e.src, e.dst)) =
            acc.map fun e => (e.src, e.dst) := by
          rw [List.map_map]
          refine List.map_congr_left fun x _ => ?_
          simp only [Function.comp]
          split_ifs with hx
          · rw [hx.1, hx.2]
          · rfl
        rw [this]; exact hacc
      · rw [List.map_append, List.nodup_append]
        refine ⟨hacc, by simp, ?_⟩
        intro p hp q hq
        simp only [List.map_cons, List.map_nil, List.mem_singleton] at hq
        obtain ⟨x, hx, rfl⟩ := List.mem_map.1 hp
        rw [hq]
        intro heq
        simp only [Prod.mk.injEq] at heq
        exact hd (List.any_eq_true.2 ⟨x, hx, by simpa using heq⟩)
  unfold fromPandas at h
  split at h
  · cases h
  · split_ifs at h
    split at h
    · cases h
    · split at h
      · cases h
      · unfold renameLearned at h
        split at h
        · cases h
        · split at h
          · cases h
          · split at h
            · cases h
            · cases h
              exact ((order.perm _).map _).nodup_iff.2 (key _ _ (by simp))

/-- **C65**: with `dependent_target=True` no column of the target has a child in the fitted graph, whatever the optimiser returns, whatever
the types, the excluded edges and the other arguments are; the same holds for the collapsed graph. -/
theorem fit_no_children (hm : RespectsBounds ext.minimize) (horder : ∀ es, (ext.order es).Perm es) (hw : c.WF e h)
    (hdep : e.params.dependentTarget = true) (hf : Fits ext e h c f) (hnc : NoClash (c.cols ++ [f.target]) f.graph.encs) :
    ∃ t ∈ f.graph.encs, t.idx = c.cols.length ∧ f.target = targetName c.yname ∧
      (∀ d ∈ f.graph.edges, ∀ m < t.cols.length, d.src ≠ columnName f.target m) ∧
      (∀ d ∈ f.graph.collapsed.edges, d.src ≠ f.target) := by
  obtain ⟨sc, a, g, h1, h2, h3, h4, -, h6, -, -, -, h7, h8, h9, -⟩ := fits_graph horder hw hf
  have henc : f.graph.encs = g.encs := by rw [h4]; split_ifs <;> rfl
  have hcol : f.graph.collapsed = g.collapsed := by rw [h4]; split_ifs <;> rfl
  rw [henc] at hnc ⊢
  rw [hcol]
  have hs : ∀ l, (learnArgs e.params (dictSet (schemaValue (e.params.schema.map fun r => h.schemas.getD r []) c.cols) f.target a)
      (parentsValue (e.params.tabuParents.map fun r => h.lists.getD r []) e.params.dependentTarget f.target)).schema = some l →
      (l.map Prod.fst).Nodup := by
    intro l hl
    cases hl
    exact h9
  obtain ⟨p1, p2⟩ := fromPandas_permitted ext.minimize ext.init ext.fuel ext.order _ _ hm horder h7 h8 hs h3 hnc
  obtain ⟨g0, x0, nm, F⟩ := fromPandas_facts horder h7 h8 hs h3
  have hnc0 := hnc
  rw [F.encs] at hnc0
  have hlast : (joined c.cols f.target sc.X sc.y).cols[c.cols.length]? = some f.target := by
    change (c.cols ++ [f.target])[c.cols.length]? = _
    simp
  have hlen : c.cols.length < (joined c.cols f.target sc.X sc.y).cols.length := by
    change c.cols.length < (c.cols ++ [f.target]).length
    simp
  obtain ⟨t, ht, hti⟩ := F.layout.var hlen
  obtain ⟨l, hl1, hl2⟩ := mem_parentsValue (e.params.tabuParents.map fun r => h.lists.getD r []) f.target
  refine ⟨t, by rw [F.encs]; exact ht, hti, h6, ?_, ?_⟩
  · intro d hd m hm' heq
    have hd' : d ∈ g.edges := by
      rw [h4] at hd
      rcases graph_edges_subset d hd with h | h
      · exact h
      · exact absurd (fromPandas_pairs h3) h
    obtain ⟨u, hu, v, hv, nu, nv, mu, mv, q1, q2, q3, q4, q5, q6, q7, -⟩ := p1 d hd'
    rw [F.encs] at hu
    have := F.name_inj hnc0 hu ht q1 hm' q3 (by rw [hti]; exact hlast) (by rw [← q5, heq])
    subst this
    rw [hti, hlast] at q3
    cases q3
    refine q7.2.2.1 l ?_ hl2
    change parentsValue _ e.params.dependentTarget _ = _
    rw [hdep]; exact hl1
  · intro d hd heq
    refine (p2 d hd).1.2.2.1 l ?_ (by rw [heq]; exact hl2)
    change parentsValue _ e.params.dependentTarget _ = _
    rw [hdep]; exact hl1

/-- **C81**: with `enforce_dag=True` the fitted graph has no directed cycle, for every outcome of the optimiser. Compared with the graph
without `enforce_dag` (`e0`), no edge is added or changed, nothing is removed from an acyclic graph, and every removed edge is at most as
large as every edge that remains. -/
theorem fit_enforce_dag (horder : ∀ es, (ext.order es).Perm es) (hw : c.WF e h) (hdag : e.params.enforceDag = true)
    (hf : Fits ext e h c f) :
    ¬ HasCycle f.graph.edges ∧ ∃ f0, Fits ext { e with params := { e.params with enforceDag := false } } h c f0 ∧
      f.graph.edges.Sublist f0.graph.edges ∧ (¬ HasCycle f0.graph.edges → f = f0) ∧
      ∀ d ∈ f0.graph.edges, d ∉ f.graph.edges → ∀ k ∈ f.graph.edges, |d.weight| ≤ |k.weight| := by
  obtain ⟨sc, a, g, h1, h2, h3, h4, h5, h6, h7, h8, h9, -, -, -, hn1, hn2⟩ := fits_graph horder hw hf
  rw [hdag, if_pos rfl] at h4
  obtain ⟨t1, t2, t3, t4⟩ := tillDag_spec g.edges.length g.edges le_rfl (fromPandas_pairs h3)
  have hE : f.graph.edges = tillDag g.edges.length g.edges := by rw [h4]
  refine ⟨by rw [hE]; exact t2, ⟨sc.contIdx, sc.ssX, sc.ssY, c.cols, f.target, g, true⟩, ?_, by rw [hE]; exact t1, ?_, by rw [hE]; exact t4⟩
  · rw [fits_iff]
    have hp := fits_iff.1 hf
    unfold pureFit at hp ⊢
    simp only at hp ⊢
    by_cases h0 : (h.tables.getD c.x []).length = 0 ∨ c.cols.length = 0 ∨ (h.series.getD c.y []).length ≠ (h.tables.getD c.x []).length
    · rw [if_pos h0] at hp; cases hp
    rw [if_neg h0]
    rw [h2, h1]
    simp only
    have h3' := h3
    rw [h6] at h3'
    change (match fromPandas ext.minimize ext.init ext.fuel ext.order (joined c.cols (targetName c.yname) sc.X sc.y)
        (learnArgs e.params (dictSet (schemaValue (e.params.schema.map fun r => h.schemas.getD r []) c.cols) (targetName c.yname) a)
          (parentsValue (e.params.tabuParents.map fun r => h.lists.getD r []) e.params.dependentTarget (targetName c.yname))) with
        | .error e => (.error e : Except Err Fit)
        | .ok g => .ok _) = _
    rw [h3']
    simp only [Bool.false_eq_true, if_false, h6]
  · intro hc
    have := t3 hc
    have hr := fits_ready hw hf
    cases f
    simp only at h4 h5 h7 h8 h9 hr ⊢
    rw [h4, this, ← h7, ← h8, ← h9, h5, hr]

end

/-! ### Histories -/

/-- A number of calls of `DAGRegressor.fit`. -/
noncomputable def regFits (ext : Ext) : Est → Heap → List Call → Est × Heap
  | e, h, [] => (e, h)
  | e, h, c :: cs => regFits ext (regFit ext e h c).2.1 (regFit ext e h c).1 cs

/-- A number of calls of `DAGClassifier.fit`, each with the names, the data, the name of the target and the labels. -/
noncomputable def clfFits {L : Type} [LinearOrder L] (ext : Ext) : Clf L → Heap → List (List Str × ℕ × Option Str × List L) → Clf L × Heap
  | k, h, [] => (k, h)
  | k, h, c :: cs => clfFits ext (clfFit ext k h c.1 c.2.1 c.2.2.1 c.2.2.2).2.1 (clfFit ext k h c.1 c.2.1 c.2.2.1 c.2.2.2).1 cs

theorem baseFit_est (ext : Ext) (e : Est) (h : Heap) (c : Call) :
    (baseFit ext e h c).2.1.params = e.params ∧ (baseFit ext e h c).2.1.targetType = e.targetType := by
  rcases baseFit_outcome ext e h c with ⟨-, f, hf⟩ | ⟨err, F, hf⟩
  · rw [hf]; exact ⟨rfl, rfl⟩
  · rw [hf]; exact ⟨rfl, rfl⟩

theorem clfFit_keeps {L : Type} [LinearOrder L] (ext : Ext) (k : Clf L) (h : Heap) (cols : List Str) (x : ℕ) (yname : Option Str)
    (y : List L) : h.Keeps (clfFit ext k h cols x yname y).1 ∧ (clfFit ext k h cols x yname y).2.1.est.params = k.est.params := by
  unfold clfFit
  simp only
  split_ifs
  · exact ⟨Heap.Keeps.refl _, rfl⟩
  · exact ⟨Heap.Keeps.refl _, rfl⟩
  · refine ⟨Heap.Keeps.trans ?_ (baseFit_spec ext _ _ _).1, (baseFit_est ext _ _ _).1⟩
    exact ⟨List.prefix_rfl, List.prefix_rfl, List.prefix_rfl, List.prefix_append _ _⟩

/-- **C65**: after any number of fits of a regressor or a classifier every object of the caller (the list of excluded parents, the
dictionary of types, the data) has its old value, and so have the arguments of the constructor. -/
theorem fits_keep (ext : Ext) :
    (∀ (cs : List Call) (e : Est) (h : Heap), h.Keeps (regFits ext e h cs).2 ∧ (regFits ext e h cs).1.params = e.params) ∧
    (∀ (L : Type) [LinearOrder L] (cs : List (List Str × ℕ × Option Str × List L)) (k : Clf L) (h : Heap),
      h.Keeps (clfFits ext k h cs).2 ∧ (clfFits ext k h cs).1.est.params = k.est.params) := by
  refine ⟨?_, ?_⟩
  · intro cs
    induction cs with
    | nil => intro e h; exact ⟨Heap.Keeps.refl _, rfl⟩
    | cons c cs ih =>
      intro e h
      unfold regFits
      obtain ⟨i1, i2⟩ := ih (regFit ext e h c).2.1 (regFit ext e h c).1
      unfold regFit at i1 i2 ⊢
      exact ⟨(baseFit_spec ext _ _ _).1.trans i1, by rw [i2, (baseFit_est ext _ _ _).1]⟩
  · intro L _ cs
    induction cs with
    | nil => intro e h; exact ⟨Heap.Keeps.refl _, rfl⟩
    | cons c cs ih =>
      intro k h
      unfold clfFits
      obtain ⟨i1, i2⟩ := ih (clfFit ext k h c.1 c.2.1 c.2.2.1 c.2.2.2).2.1 (clfFit ext k h c.1 c.2.1 c.2.2.1 c.2.2.2).1
      obtain ⟨j1, j2⟩ := clfFit_keeps ext k h c.1 c.2.1 c.2.2.1 c.2.2.2
      exact ⟨j1.trans i1, by rw [i2, j2]⟩

/-- The references of an estimator exist. -/
def Est.Valid (e : Est) (h : Heap) : Prop :=
  (∀ r, e.params.schema = some r → r < h.schemas.length) ∧ (∀ r, e.params.tabuParents = some r → r < h.lists.length)

theorem baseFit_congr (ext : Ext) {e e' : Est} {h h' : Heap} {c : Call} (hk : h.Keeps h') (hp : e'.params = e.params)
    (ht : e'.targetType = e.targetType) (hv : e.Valid h) (hx : c.x < h.tables.length) (hy : c.y < h.series.length) :
    (baseFit ext e' h' c).2.2 = (baseFit ext e h c).2.2 ∧ ∀ f, Fits ext e' h' c f ↔ Fits ext e h c f := by
  have h1 : (e.params.schema.map fun r => h'.schemas.getD r []) = e.params.schema.map fun r => h.schemas.getD r [] := by
    cases hr : e.params.schema with
    | none => rfl
    | some r => rw [Option.map_some, Option.map_some, prefix_getD hk.2.1 (hv.1 r hr)]
  have h2 : (e.params.tabuParents.map fun r => h'.lists.getD r []) = e.params.tabuParents.map fun r => h.lists.getD r [] := by
    cases hr : e.params.tabuParents with
    | none => rfl
    | some r => rw [Option.map_some, Option.map_some, prefix_getD hk.1 (hv.2 r hr)]
  refine ⟨?_, fun f => ?_⟩
  · rw [(baseFit_spec ext e' h' c).2, (baseFit_spec ext e h c).2, hp, ht, h1, h2, prefix_getD hk.2.2.1 hx, prefix_getD hk.2.2.2 hy]
    cases pureFit ext e.params e.targetType (e.params.schema.map fun r => h.schemas.getD r [])
      (e.params.tabuParents.map fun r => h.lists.getD r []) c.cols (h.tables.getD c.x []) (h.series.getD c.y []) c.yname <;> rfl
  · rw [fits_iff, fits_iff, hp, ht, h1, h2, prefix_getD hk.2.2.1 hx, prefix_getD hk.2.2.2 hy]

/-- **C65**: a regressor that has been fitted any number of times, to any data and targets, behaves like a new one: the same call gives the
same outcome and the same fitted state. -/
theorem regFit_history (ext : Ext) (e : Est) (h : Heap) (cs : List Call) (c : Call) (hv : e.Valid h) (hx : c.x < h.tables.length)
    (hy : c.y < h.series.length) :
    (regFit ext (regFits ext e h cs).1 (regFits ext e h cs).2 c).2.2 = (regFit ext e h c).2.2 ∧
    ((regFit ext e h c).2.2 = none →
      (regFit ext (regFits ext e h cs).1 (regFits ext e h cs).2 c).2.1.fitted = (regFit ext e h c).2.1.fitted) := by
  have htt : ∀ (cs : List Call) (e : Est) (h : Heap), (regFits ext e h cs).1.targetType.getD .cont = e.targetType.getD .cont := by
    intro cs
    induction cs with
    | nil => intro e h; rfl
    | cons c cs ih =>
      intro e h
      unfold regFits
      rw [ih]
      unfold regFit
      rw [(baseFit_est ext _ _ _).2]
      rfl
  have hkeep := (fits_keep ext).1 cs e h
  unfold regFit
  obtain ⟨h1, h2⟩ := baseFit_congr ext (e := { e with targetType := some (e.targetType.getD .cont) })
    (e' := { (regFits ext e h cs).1 with targetType := some ((regFits ext e h cs).1.targetType.getD .cont) }) (c := c) hkeep.1 hkeep.2
    (by rw [htt]) hv hx hy
  refine ⟨h1, fun h0 => ?_⟩
  rcases baseFit_outcome ext { e with targetType := some (e.targetType.getD .cont) } h c with ⟨-, f, hf⟩ | ⟨err, F, hf⟩
  · have hf' := (h2 f).2 hf
    unfold Fits at hf hf'
    rw [hf, hf']
  · rw [hf] at h0; cases h0

/-- The type of the target of a classifier is chosen by the first fit that gets to it, and stays. -/
theorem clf_type_stays {L : Type} [LinearOrder L] (ext : Ext) (cs : List (List Str × ℕ × Option Str × List L)) :
    ∀ (k : Clf L) (h : Heap) (a : Alias), k.est.targetType = some a → (clfFits ext k h cs).1.est.targetType = some a := by
  induction cs with
  | nil => intro k h a ha; exact ha
  | cons c cs ih =>
    intro k h a ha
    unfold clfFits
    refine ih _ _ a ?_
    unfold clfFit
    simp only
    split_ifs
    · exact ha
    · exact ha
    · rw [(baseFit_est ext _ _ _).2]
      change some (clfType k.est.targetType _) = _
      rw [ha]; rfl

end Verif.Sklearn
