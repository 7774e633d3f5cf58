import Verif.Sklearn.Pure

/-!
# What a successful `fit` produced
-/

namespace Verif.Sklearn

open Verif.Str Verif.Pytorch
open Verif.Notears (Tabu Minimizer colIdx TabuNamed TabuKnown)

/-- All there is to know about a successful `from_pandas`. -/
structure Facts (minimize : Minimizer ℝ) (init : ℕ → ℝ) (fuel : ℕ) (X : Table) (x : Args Str) (g : Learned Str) (g0 : Learned ℕ)
    (x0 : Args ℕ) (f : ℕ → Str) : Prop where
  known : SchemaKnown X.cols x.schema
  named : SchemaNamed X.cols x.schema x0.schema
  dict : SchemaDict x0.schema
  same : x0 = { x with schema := x0.schema, tabu := x0.tabu }
  learned : fromNumpy minimize init fuel X.values x0 = .ok g0
  names : NamesColumns X.cols g0.encs f
  inj : NoClash X.cols g0.encs → ∀ k l, k < g0.arch.d → l < g0.arch.d → f k = f l → k = l
  arch : g.arch = g0.arch
  encs : g.encs = g0.encs
  params : g.params = g0.params
  nodes : ∀ n, n ∈ g.nodes ↔ ∃ k < g0.arch.d, n = f k
  edges : NoClash X.cols g0.encs → g.edges.Perm (g0.edges.map fun e => ⟨f e.src, f e.dst, e.weight, e.meanEffect, "learned"⟩)
  attrs : NoClash X.cols g0.encs → ∀ k < g0.arch.d, g.bias (f k) = g0.bias k ∧ g.distType (f k) = g0.distType k
  layout : Layout g0.encs X.cols.length g0.arch.d
  types : ∀ l, x.schema = some l → g0.encs.map (fun e => (X.cols.getD e.idx [], e.alias)) = l
  distType : ∀ k e, g0.distType k = some e ↔ e ∈ g0.encs ∧ k ∈ e.cols
  tabu : TabuNamed X.cols x.tabu x0.tabu

theorem fromPandas_facts {minimize : Minimizer ℝ} {init : ℕ → ℝ} {fuel : ℕ} {order : Visit} {X : Table} {x : Args Str}
    {g : Learned Str} (horder : ∀ es, (order es).Perm es) (hnd : X.cols.Nodup) (hwf : X.values.WF)
    (hs : ∀ l, x.schema = some l → (l.map Prod.fst).Nodup) (h : fromPandas minimize init fuel order X x = .ok g) :
    ∃ g0 x0 f, Facts minimize init fuel X x g g0 x0 f := by
  obtain ⟨t1, t2, t3, t4⟩ := fromPandas_total minimize init fuel order X x horder hnd hwf hs
  have hk1 : SchemaKnown X.cols x.schema := by by_contra hn; rw [t1 hn] at h; cases h
  have hk2 : ∀ b ∈ X.numeric, b = true := by by_contra hn; rw [t2 hk1 hn] at h; cases h
  have hk3 : TabuKnown X.cols x.tabu := by by_contra hn; rw [t3 hk1 hk2 hn] at h; cases h
  obtain ⟨s, t, hsn, hsd, ht, herr, hok⟩ := t4 hk1 hk2 hk3
  cases hg : fromNumpy minimize init fuel X.values { x with schema := s, tabu := t } with
  | error e => rw [herr e hg] at h; cases h
  | ok g0 =>
    obtain ⟨f, g', h1, h2, h3, h4, h5, h6, -, -, -, -, h7, h8⟩ := hok g0 hg
    rw [h] at h1
    cases h1
    obtain ⟨l1, l2, -, l4⟩ := fromNumpy_layout hwf hsd hg
    refine ⟨g0, { x with schema := s, tabu := t }, f, ?_⟩
    refine ⟨hk1, hsn, hsd, rfl, hg, h2, h3.2, h4, h5, h6, h7, fun h => (h8 h).1, fun h => (h8 h).2, l1, ?_, l4, ht⟩
    intro l hl
    unfold SchemaNamed at hsn
    rw [hl] at hsn
    simp only at l2 hsn
    cases s with
    | none => cases hsn
    | some s' =>
      cases hsn with
      | some hsn =>
        change g0.encs.map (fun e => (e.idx, e.alias)) = s' at l2
        have : g0.encs.map (fun e => (X.cols.getD e.idx [], e.alias)) = s'.map (fun q => (X.cols.getD q.1 [], q.2)) := by
          rw [← l2, List.map_map]; rfl
        rw [this]
        clear l2 this hg hok herr h2 h3 h4 h5 h6 h7 h8 l1 l4 hs hl hsd
        induction hsn with
        | nil => rfl
        | cons hpq _ ih =>
          obtain ⟨q1, q2⟩ := hpq
          rw [List.map_cons, ih, List.getD_eq_getElem?_getD, q1, q2]
          rfl

section
variable {minimize : Minimizer ℝ} {init : ℕ → ℝ} {fuel : ℕ} {X : Table} {x : Args Str} {g : Learned Str} {g0 : Learned ℕ} {x0 : Args ℕ}
  {f : ℕ → Str}

/-- The columns of the variables have different names. -/
theorem Facts.name_inj (F : Facts minimize init fuel X x g g0 x0 f) (hnc : NoClash X.cols g0.encs) {a b : Enc} (ha : a ∈ g0.encs)
    (hb : b ∈ g0.encs) {m n : ℕ} (hm : m < a.cols.length) (hn : n < b.cols.length) {u v : Str} (hu : X.cols[a.idx]? = some u)
    (hv : X.cols[b.idx]? = some v) (h : columnName u m = columnName v n) : a = b := by
  obtain ⟨u', hu', e1⟩ := F.names a ha m _ (List.getElem?_eq_getElem hm)
  obtain ⟨v', hv', e2⟩ := F.names b hb n _ (List.getElem?_eq_getElem hn)
  rw [hu] at hu'; cases hu'
  rw [hv] at hv'; cases hv'
  have hk := F.inj hnc _ _ (F.layout.col_lt ha (List.getElem_mem hm)) (F.layout.col_lt hb (List.getElem_mem hn)) (by rw [e1, e2, h])
  refine F.layout.owner_unique ha hb (List.getElem_mem hm) ?_
  rw [hk]; exact List.getElem_mem hn

/-- The variable with a given name and type. -/
theorem Facts.var (F : Facts minimize init fuel X x g g0 x0 f) {l : List (Str × Alias)} (hl : x.schema = some l) {n : Str} {a : Alias}
    (h : (n, a) ∈ l) : ∃ e ∈ g0.encs, X.cols[e.idx]? = some n ∧ e.alias = a := by
  have hn : n ∈ X.cols := F.known l hl _ h
  rw [← F.types l hl] at h
  obtain ⟨e, he, hh⟩ := List.mem_map.1 h
  simp only [Prod.mk.injEq] at hh
  refine ⟨e, he, ?_, hh.2⟩
  have := F.layout.idx_lt he
  rw [← hh.1, List.getD_eq_getElem?_getD, List.getElem?_eq_getElem this]
  rfl

theorem Facts.first_name (F : Facts minimize init fuel X x g g0 x0 f) {e : Enc} (he : e ∈ g0.encs) {v : Str}
    (hv : X.cols[e.idx]? = some v) : f e.idx = v ∧ e.idx < g0.arch.d ∧ e.idx ∈ e.cols := by
  have hh := F.layout.head e he
  have h0 : e.cols[0]? = some e.idx := by rw [← List.head?_eq_getElem?]; exact hh
  obtain ⟨v', hv', h1⟩ := F.names e he 0 _ h0
  rw [hv] at hv'; cases hv'
  have hmem : e.idx ∈ e.cols := List.mem_of_getElem? h0
  exact ⟨h1, F.layout.col_lt he hmem, hmem⟩

/-- The type attached to the node of a variable. -/
theorem Facts.node_type (F : Facts minimize init fuel X x g g0 x0 f) (hnc : NoClash X.cols g0.encs) {e : Enc} (he : e ∈ g0.encs) {v : Str}
    (hv : X.cols[e.idx]? = some v) : g.distType v = some e := by
  obtain ⟨h1, h2, h3⟩ := F.first_name he hv
  rw [← h1, (F.attrs hnc _ h2).2, F.distType]
  exact ⟨he, h3⟩

end

theorem dictSet_nodup {l : List (Str × Alias)} (h : (l.map Prod.fst).Nodup) (k : Str) (a : Alias) : ((dictSet l k a).map Prod.fst).Nodup := by
  unfold dictSet
  split_ifs with hk
  · have : (l.map fun p => if p.1 = k then (k, a) else p).map Prod.fst = l.map Prod.fst := by
      rw [List.map_map]
      refine List.map_congr_left fun p _ => ?_
      simp only [Function.comp]
      split_ifs with hp
      · exact hp.symm
      · rfl
    rw [this]; exact h
  · rw [List.map_append, List.nodup_append]
    refine ⟨h, by simp, ?_⟩
    intro x hx y hy
    simp only [List.map_cons, List.map_nil, List.mem_singleton] at hy
    rw [hy]; rintro rfl; exact hk hx

theorem dictSet_mem (l : List (Str × Alias)) (k : Str) (a : Alias) (p : Str × Alias) :
    p ∈ dictSet l k a ↔ p = (k, a) ∨ (p ∈ l ∧ p.1 ≠ k) := by
  unfold dictSet
  split_ifs with hk
  · rw [List.mem_map]
    constructor
    · rintro ⟨q, hq, rfl⟩
      split_ifs with h
      · exact Or.inl rfl
      · exact Or.inr ⟨hq, h⟩
    · rintro (rfl | ⟨h1, h2⟩)
      · obtain ⟨q, hq, hqk⟩ := List.mem_map.1 hk
        exact ⟨q, hq, by rw [if_pos hqk]⟩
      · exact ⟨p, h1, by rw [if_neg h2]⟩
  · rw [List.mem_append, List.mem_singleton, or_comm]
    refine or_congr_right ⟨fun h => ⟨h, ?_⟩, fun h => h.1⟩
    rintro rfl
    exact hk (List.mem_map_of_mem h)

theorem scaleRow_length (cast : ℚ → ℚ) (idxs : List ℕ) (ss : List (ℚ × ℚ)) (row : List ℚ) :
    (scaleRow cast idxs ss row).length = row.length := by
  unfold scaleRow
  have : ∀ (l : List (ℕ × (ℚ × ℚ))) (r : List ℚ), (l.foldl (fun r x => r.set x.1 (cast (scaleValue x.2 (row.getD x.1 0)))) r).length = r.length := by
    intro l
    induction l with
    | nil => intro r; rfl
    | cons x l ih => intro r; rw [List.foldl_cons, ih]; simp
  exact this _ _

theorem scaleValues_shape {std : List ℚ → ℚ} {on : Bool} {tt : Option Alias} {schema : List (Str × Alias)} {cols : List Str}
    {X : List (List ℚ)} {y : List ℚ} {v : ScaledValues} (h : scaleValues std on tt schema cols X y = .ok v) :
    v.X.map List.length = X.map List.length ∧ v.y.length = y.length := by
  unfold scaleValues at h
  cases on
  · cases h; exact ⟨rfl, rfl⟩
  · rw [if_pos rfl] at h
    cases hc : contColumns cols schema with
    | error e => rw [hc] at h; cases h
    | ok idxs =>
      rw [hc] at h
      simp only at h
      have hlen : ∀ ss, (X.map (scaleRow id idxs ss)).map List.length = X.map List.length := by
        intro ss
        rw [List.map_map]
        exact List.map_congr_left fun r _ => scaleRow_length _ _ _ _
      by_cases h0 : idxs = []
      · rw [if_pos h0] at h; cases h
      · rw [if_neg h0] at h
        by_cases ht : tt = some .cont
        · rw [if_pos ht] at h
          cases h
          exact ⟨hlen _, by simp⟩
        · rw [if_neg ht] at h
          cases h
          exact ⟨hlen _, rfl⟩

theorem zipWith_wf {n : ℕ} {X : List (List ℚ)} {y : List ℚ} (h : ∀ r ∈ X, r.length = n) :
    ∀ r ∈ List.zipWith (fun r (v : ℚ) => r ++ [v]) X y, r.length = n + 1 := by
  induction X generalizing y with
  | nil => intro r hr; simp at hr
  | cons a X ih =>
    cases y with
    | nil => intro r hr; simp at hr
    | cons b y =>
      intro r hr
      rw [List.zipWith_cons_cons] at hr
      rcases List.mem_cons.1 hr with rfl | hr
      · rw [List.length_append, h a List.mem_cons_self]; rfl
      · exact ih (fun r hr => h r (List.mem_cons_of_mem _ hr)) r hr

/-- What is assumed of the arguments of `fit`: the features have different names, the target another one, the data are rectangular,
and a schema is a dictionary. -/
structure WellFormed (cols : List Str) (yname : Option Str) (X : List (List ℚ)) (schema : Option (List (Str × Alias))) : Prop where
  nodup : cols.Nodup
  fresh : targetName yname ∉ cols
  rect : ∀ r ∈ X, r.length = cols.length
  dict : ∀ l, schema = some l → (l.map Prod.fst).Nodup

theorem schemaValue_nodup {cols : List Str} {schema : Option (List (Str × Alias))} (hc : cols.Nodup)
    (hd : ∀ l, schema = some l → (l.map Prod.fst).Nodup) : ((schemaValue schema cols).map Prod.fst).Nodup := by
  have hdef : ((cols.map fun c => (c, Alias.cont)).map Prod.fst).Nodup := by
    rw [List.map_map]
    change (cols.map id).Nodup
    rwa [List.map_id]
  unfold schemaValue
  split
  · exact hdef
  · exact hdef
  · exact hd _ rfl

/-- The parts of a successful `fit`. -/
theorem pureFit_ok {ext : Ext} {p : Params} {tt : Option Alias} {schema : Option (List (Str × Alias))} {parents : Option (List Str)}
    {cols : List Str} {X : List (List ℚ)} {y : List ℚ} {yname : Option Str} {f : Fit}
    (h : pureFit ext p tt schema parents cols X y yname = .ok f) (hw : WellFormed cols yname X schema) :
    ∃ sc a g, X ≠ [] ∧ cols ≠ [] ∧ y.length = X.length ∧
      scaleValues ext.std p.standardize tt (schemaValue schema cols) cols X y = .ok sc ∧ tt = some a ∧
      fromPandas ext.minimize ext.init ext.fuel ext.order (joined cols (targetName yname) sc.X sc.y)
        (learnArgs p (dictSet (schemaValue schema cols) (targetName yname) a)
          (parentsValue parents p.dependentTarget (targetName yname))) = .ok g ∧
      f = ⟨sc.contIdx, sc.ssX, sc.ssY, cols, targetName yname,
        if p.enforceDag then { g with edges := tillDag g.edges.length g.edges } else g, true⟩ ∧
      (joined cols (targetName yname) sc.X sc.y).cols.Nodup ∧ (joined cols (targetName yname) sc.X sc.y).values.WF ∧
      ((dictSet (schemaValue schema cols) (targetName yname) a).map Prod.fst).Nodup := by
  unfold pureFit at h
  by_cases h0 : X.length = 0 ∨ cols.length = 0 ∨ y.length ≠ X.length
  · rw [if_pos h0] at h; cases h
  rw [if_neg h0] at h
  push Not at h0
  obtain ⟨h1, h2, h3⟩ := h0
  cases hs : scaleValues ext.std p.standardize tt (schemaValue schema cols) cols X y with
  | error e => rw [hs] at h; cases h
  | ok sc =>
    rw [hs] at h
    simp only at h
    cases tt with
    | none => cases h
    | some a =>
      simp only at h
      cases hg : fromPandas ext.minimize ext.init ext.fuel ext.order (joined cols (targetName yname) sc.X sc.y)
        (learnArgs p (dictSet (schemaValue schema cols) (targetName yname) a)
          (parentsValue parents p.dependentTarget (targetName yname))) with
      | error e => rw [hg] at h; cases h
      | ok g =>
        rw [hg] at h
        cases h
        refine ⟨sc, a, g, by rintro rfl; exact h1 rfl, by rintro rfl; exact h2 rfl, h3, rfl, rfl, hg, rfl, ?_, ?_, ?_⟩
        · change (cols ++ [targetName yname]).Nodup
          rw [List.nodup_append]
          refine ⟨hw.nodup, by simp, ?_⟩
          intro x hx y hy
          rw [List.mem_singleton] at hy
          rw [hy]; rintro rfl; exact hw.fresh hx
        · change ∀ r ∈ List.zipWith (fun r v => r ++ [v]) sc.X sc.y, r.length = (cols ++ [targetName yname]).length
          rw [List.length_append]
          refine zipWith_wf fun r hr => ?_
          have hsh := (scaleValues_shape hs).1
          have : r.length ∈ sc.X.map List.length := List.mem_map_of_mem hr
          rw [hsh] at this
          obtain ⟨r', hr', e⟩ := List.mem_map.1 this
          rw [← e]; exact hw.rect r' hr'
        · exact dictSet_nodup (schemaValue_nodup hw.nodup hw.dict) _ _

/-! ### Removing edges until there is no cycle -/

theorem smallest_mem {es : List (LEdge Str)} {m : LEdge Str} (h : smallest es = some m) :
    m ∈ es ∧ ∀ e ∈ es, |m.weight| ≤ |e.weight| := by
  refine ⟨List.mem_of_find?_eq_some h, ?_⟩
  have := List.find?_some h
  simpa using this

theorem smallest_some {es : List (LEdge Str)} (h : es ≠ []) : ∃ m, smallest es = some m := by
  have hmin : ∀ l : List (LEdge Str), l ≠ [] → ∃ m ∈ l, ∀ e ∈ l, |m.weight| ≤ |e.weight| := by
    intro l
    induction l with
    | nil => intro h; exact absurd rfl h
    | cons a l ih =>
      intro _
      by_cases hl : l = []
      · exact ⟨a, List.mem_cons_self, by intro e he; rw [hl, List.mem_singleton] at he; rw [he]⟩
      · obtain ⟨m, hm, hmm⟩ := ih hl
        rcases le_total |a.weight| |m.weight| with hle | hle
        · refine ⟨a, List.mem_cons_self, fun e he => ?_⟩
          rcases List.mem_cons.1 he with rfl | he
          · exact le_rfl
          · exact hle.trans (hmm e he)
        · refine ⟨m, List.mem_cons_of_mem _ hm, fun e he => ?_⟩
          rcases List.mem_cons.1 he with rfl | he
          · exact hle
          · exact hmm e he
  rw [← Option.isSome_iff_exists]
  unfold smallest
  rw [List.find?_isSome]
  obtain ⟨m, hm, hmm⟩ := hmin es h
  exact ⟨m, hm, by simpa using hmm⟩

theorem not_hasCycle_nil : ¬ HasCycle [] := by
  rintro ⟨u, hu⟩
  cases hu with
  | single h => obtain ⟨e, he, -⟩ := h; cases he
  | tail _ h => obtain ⟨e, he, -⟩ := h; cases he

/-- Removing edges ends without a cycle; what is removed is no larger than what remains; nothing is removed from an acyclic graph. -/
theorem tillDag_spec : ∀ (n : ℕ) (es : List (LEdge Str)), es.length ≤ n → (es.map fun e => (e.src, e.dst)).Nodup →
    (tillDag n es).Sublist es ∧ ¬ HasCycle (tillDag n es) ∧ (¬ HasCycle es → tillDag n es = es) ∧
      ∀ e ∈ es, e ∉ tillDag n es → ∀ k ∈ tillDag n es, |e.weight| ≤ |k.weight| := by
  intro n
  induction n with
  | zero =>
    intro es hl _
    have : es = [] := List.length_eq_zero_iff.1 (by omega)
    subst this
    exact ⟨List.Sublist.refl _, not_hasCycle_nil, fun _ => rfl, fun e he => by cases he⟩
  | succ n ih =>
    intro es hl hnd
    unfold tillDag
    by_cases hc : HasCycle es
    · rw [if_pos hc]
      have hne : es ≠ [] := by rintro rfl; exact not_hasCycle_nil hc
      obtain ⟨m, hm⟩ := smallest_some hne
      rw [hm]
      simp only
      obtain ⟨hmem, hmin⟩ := smallest_mem hm
      set es' := es.filter fun e => ¬ (e.src = m.src ∧ e.dst = m.dst) with hes'
      have hsub : es'.Sublist es := List.filter_sublist
      have hlt : es'.length < es.length := by
        refine List.length_filter_lt_length_iff_exists.2 ⟨m, hmem, by simp⟩
      obtain ⟨h1, h2, h3, h4⟩ := ih es' (by omega) (hnd.sublist (hsub.map _))
      refine ⟨h1.trans hsub, h2, fun h => absurd hc h, fun e he hne k hk => ?_⟩
      by_cases hem : e = m
      · rw [hem]; exact hmin k (hsub.subset (h1.subset hk))
      · refine h4 e ?_ hne k hk
        rw [hes', List.mem_filter]
        refine ⟨he, ?_⟩
        rw [decide_eq_true_iff]
        rintro ⟨q1, q2⟩
        exact hem (List.inj_on_of_nodup_map hnd he hmem (by rw [q1, q2]))
    · rw [if_neg hc]
      exact ⟨List.Sublist.refl _, hc, fun _ => rfl, fun e he hne => absurd he hne⟩

end Verif.Sklearn
