import Verif.Sklearn.PropsClf

/-!
# Importances, coefficients and intercepts (C67)
-/

namespace Verif.Sklearn

open Verif.Str Verif.Pytorch
open Verif.Notears (Tabu Minimizer RespectsBounds Permitted)

/-! ### Specification -/

/-- The value of the edge from `c` to `n`, zero if there is none. -/
def EdgeValue (es : List (LEdge Str)) (value : LEdge Str → ℝ) (c n : Str) (v : ℝ) : Prop :=
  (∃ d ∈ es, d.src = c ∧ d.dst = n ∧ v = value d) ∨ ((∀ d ∈ es, ¬ (d.src = c ∧ d.dst = n)) ∧ v = 0)

/-- `l` has the values of the edges into `n` at the positions of their features; `extra` more entries follow. -/
def Aligned (features : List Str) (es : List (LEdge Str)) (value : LEdge Str → ℝ) (n : Str) (l : List ℝ) : Prop :=
  ∀ (k : ℕ) (c : Str), features[k]? = some c → ∃ v, l[k]? = some v ∧ EdgeValue es value c n v

/-! ### One series -/

theorem seriesSet_keys (l : List (Str × ℝ)) (i : Str) (w : ℝ) :
    (seriesSet l i w).map Prod.fst = if i ∈ l.map Prod.fst then l.map Prod.fst else l.map Prod.fst ++ [i] := by
  unfold seriesSet
  split_ifs with h
  · rw [List.map_map]
    refine List.map_congr_left fun p _ => ?_
    simp only [Function.comp]
    split_ifs with hp
    · exact hp.symm
    · rfl
  · simp

theorem seriesSet_mem {l : List (Str × ℝ)} {i : Str} {w : ℝ} {p : Str × ℝ} :
    p ∈ seriesSet l i w ↔ p = (i, w) ∨ (p ∈ l ∧ p.1 ≠ i) := by
  unfold seriesSet
  split_ifs with h
  · rw [List.mem_map]
    constructor
    · rintro ⟨q, hq, rfl⟩
      split_ifs with hh
      · exact Or.inl rfl
      · exact Or.inr ⟨hq, hh⟩
    · rintro (rfl | ⟨h1, h2⟩)
      · obtain ⟨q, hq, hqk⟩ := List.mem_map.1 h
        exact ⟨q, hq, by rw [if_pos hqk]⟩
      · exact ⟨p, h1, by rw [if_neg h2]⟩
  · rw [List.mem_append, List.mem_singleton]
    constructor
    · rintro (h1 | h1)
      · exact Or.inr ⟨h1, fun hp => h (List.mem_map.2 ⟨p, h1, hp⟩)⟩
      · exact Or.inl h1
    · rintro (h1 | h1)
      · exact Or.inr h1
      · exact Or.inl h1.1

/-- The labels: the features in their order, then the other sources of edges into the node. -/
theorem edgesToNode_keys (f : Fit) (value : LEdge Str → ℝ) (name : Str) :
    ∃ extra, (edgesToNode f value name).map Prod.fst = f.features ++ extra ∧
      (∀ c ∈ extra, c ∉ f.features ∧ ∃ d ∈ f.graph.edges, d.src = c ∧ d.dst = name) ∧
      ∀ d ∈ f.graph.edges, d.dst = name → d.src ∈ f.features ++ extra := by
  unfold edgesToNode
  have key : ∀ (es : List (LEdge Str)) (l : List (Str × ℝ)) (extra : List Str), l.map Prod.fst = f.features ++ extra →
      (∀ c ∈ extra, c ∉ f.features) →
      ∃ extra', (es.foldl (fun l e => if e.dst = name then seriesSet l e.src (value e) else l) l).map Prod.fst = f.features ++ extra' ∧
        (∀ c ∈ extra', c ∉ f.features ∧ (c ∈ extra ∨ ∃ d ∈ es, d.src = c ∧ d.dst = name)) ∧ extra ⊆ extra' ∧
        ∀ d ∈ es, d.dst = name → d.src ∈ f.features ++ extra' := by
    intro es
    induction es with
    | nil => intro l extra h1 h2; exact ⟨extra, h1, fun c hc => ⟨h2 c hc, Or.inl hc⟩, fun _ h => h, by simp⟩
    | cons d es ih =>
      intro l extra h1 h2
      rw [List.foldl_cons]
      by_cases hd : d.dst = name
      · rw [if_pos hd]
        have hk := seriesSet_keys l d.src (value d)
        by_cases hin : d.src ∈ l.map Prod.fst
        · rw [if_pos hin, h1] at hk
          obtain ⟨e', q1, q2, q3, q4⟩ := ih _ extra hk h2
          refine ⟨e', q1, ?_, q3, ?_⟩
          · intro c hc
            refine ⟨(q2 c hc).1, (q2 c hc).2.imp_right ?_⟩
            rintro ⟨d', hd', hh⟩
            exact ⟨d', List.mem_cons_of_mem _ hd', hh⟩
          · intro d' hd' hh
            rcases List.mem_cons.1 hd' with rfl | hd'
            · rw [h1, List.mem_append] at hin
              rw [List.mem_append]
              exact hin.imp_right fun h => q3 h
            · exact q4 d' hd' hh
        · rw [if_neg hin, h1, List.append_assoc] at hk
          rw [h1, List.mem_append, not_or] at hin
          obtain ⟨e', q1, q2, q3, q4⟩ := ih _ (extra ++ [d.src]) hk (by
            intro c hc
            rcases List.mem_append.1 hc with hc | hc
            · exact h2 c hc
            · rw [List.mem_singleton] at hc; rw [hc]; exact hin.1)
          refine ⟨e', q1, ?_, fun c hc => q3 (List.mem_append_left _ hc), ?_⟩
          · intro c hc
            refine ⟨(q2 c hc).1, ?_⟩
            rcases (q2 c hc).2 with h | ⟨d', hd', hh⟩
            · rcases List.mem_append.1 h with h | h
              · exact Or.inl h
              · rw [List.mem_singleton] at h
                exact Or.inr ⟨d, List.mem_cons_self, h.symm, hd⟩
            · exact Or.inr ⟨d', List.mem_cons_of_mem _ hd', hh⟩
          · intro d' hd' hh
            rcases List.mem_cons.1 hd' with rfl | hd'
            · exact List.mem_append_right _ (q3 (by simp))
            · exact q4 d' hd' hh
      · rw [if_neg hd]
        obtain ⟨e', q1, q2, q3, q4⟩ := ih _ extra h1 h2
        refine ⟨e', q1, ?_, q3, ?_⟩
        · intro c hc
          refine ⟨(q2 c hc).1, (q2 c hc).2.imp_right ?_⟩
          rintro ⟨d', hd', hh⟩
          exact ⟨d', List.mem_cons_of_mem _ hd', hh⟩
        · intro d' hd' hh
          rcases List.mem_cons.1 hd' with rfl | hd'
          · exact absurd hh hd
          · exact q4 d' hd' hh
  obtain ⟨extra, q1, q2, -, q4⟩ := key f.graph.edges (f.features.map fun c => (c, 0)) [] (by
    rw [List.map_map, List.append_nil]; exact List.map_id _) (by simp)
  refine ⟨extra, q1, ?_, q4⟩
  intro c hc
  obtain ⟨h1, h2⟩ := q2 c hc
  refine ⟨h1, ?_⟩
  rcases h2 with h2 | h2
  · simp at h2
  · exact h2

theorem edgesToNode_values (f : Fit) (value : LEdge Str → ℝ) (name : Str)
    (hp : (f.graph.edges.map fun d => (d.src, d.dst)).Nodup) :
    ∀ p ∈ edgesToNode f value name, EdgeValue f.graph.edges value p.1 name p.2 := by
  unfold edgesToNode
  have key : ∀ (es done : List (LEdge Str)) (l : List (Str × ℝ)), ((done ++ es).map fun d => (d.src, d.dst)).Nodup →
      (∀ p ∈ l, EdgeValue done value p.1 name p.2) →
      ∀ p ∈ es.foldl (fun l e => if e.dst = name then seriesSet l e.src (value e) else l) l, EdgeValue (done ++ es) value p.1 name p.2 := by
    intro es
    induction es with
    | nil => intro done l _ h; rw [List.append_nil]; exact h
    | cons d es ih =>
      intro done l hn h
      rw [List.foldl_cons, show done ++ d :: es = (done ++ [d]) ++ es by simp]
      refine ih (done ++ [d]) _ (by simpa using hn) ?_
      have hnot : ∀ x ∈ done, ¬ (x.src = d.src ∧ x.dst = d.dst) := by
        intro x hx hh
        rw [List.map_append, List.nodup_append] at hn
        exact hn.2.2 (x.src, x.dst) (List.mem_map.2 ⟨x, hx, rfl⟩) (d.src, d.dst) (by simp) (by rw [hh.1, hh.2])
      by_cases hd : d.dst = name
      · rw [if_pos hd]
        intro p hpm
        rcases seriesSet_mem.1 hpm with rfl | ⟨h1, h2⟩
        · exact Or.inl ⟨d, by simp, rfl, hd, rfl⟩
        · rcases h p h1 with ⟨x, hx, q⟩ | ⟨q1, q2⟩
          · exact Or.inl ⟨x, List.mem_append_left _ hx, q⟩
          · refine Or.inr ⟨?_, q2⟩
            intro x hx hh
            rcases List.mem_append.1 hx with hx | hx
            · exact q1 x hx hh
            · rw [List.mem_singleton] at hx
              rw [hx] at hh
              exact h2 hh.1.symm
      · rw [if_neg hd]
        intro p hpm
        rcases h p hpm with ⟨x, hx, q⟩ | ⟨q1, q2⟩
        · exact Or.inl ⟨x, List.mem_append_left _ hx, q⟩
        · refine Or.inr ⟨?_, q2⟩
          intro x hx hh
          rcases List.mem_append.1 hx with hx | hx
          · exact q1 x hx hh
          · rw [List.mem_singleton] at hx
            rw [hx] at hh
            exact hd hh.2
  have := key f.graph.edges [] (f.features.map fun c => (c, 0)) (by simpa using hp) (by
    intro p hpm
    obtain ⟨c, -, rfl⟩ := List.mem_map.1 hpm
    exact Or.inr ⟨by simp, rfl⟩)
  simpa using this

/-- **C67** (any graph): the values are at the positions of their features, followed by one entry for every source that is not a
feature. -/
theorem edgesToNode_aligned (f : Fit) (value : LEdge Str → ℝ) (name : Str) (hp : (f.graph.edges.map fun d => (d.src, d.dst)).Nodup) :
    Aligned f.features f.graph.edges value name ((edgesToNode f value name).map Prod.snd) ∧
    f.features.length ≤ (edgesToNode f value name).length ∧
    ((edgesToNode f value name).length = f.features.length ↔ ∀ d ∈ f.graph.edges, d.dst = name → d.src ∈ f.features) := by
  obtain ⟨extra, h1, h2, h3⟩ := edgesToNode_keys f value name
  have hlen : (edgesToNode f value name).length = f.features.length + extra.length := by
    have := congrArg List.length h1
    simpa using this
  refine ⟨?_, by omega, ?_⟩
  · intro k c hk
    have hkl : k < f.features.length := (List.getElem?_eq_some_iff.1 hk).1
    have hkl' : k < (edgesToNode f value name).length := by omega
    have hfst : (edgesToNode f value name)[k].1 = c := by
      have h4 : ((edgesToNode f value name).map Prod.fst)[k]? = some c := by
        rw [h1, List.getElem?_append_left hkl, hk]
      rw [List.getElem?_map, List.getElem?_eq_getElem hkl'] at h4
      exact Option.some.inj h4
    refine ⟨(edgesToNode f value name)[k].2, ?_, ?_⟩
    · rw [List.getElem?_map, List.getElem?_eq_getElem hkl']; rfl
    · have := edgesToNode_values f value name hp _ (List.getElem_mem hkl')
      rwa [hfst] at this
  · constructor
    · intro h d hd hn
      have : extra = [] := List.length_eq_zero_iff.1 (by omega)
      have h4 := h3 d hd hn
      rwa [this, List.append_nil] at h4
    · intro h
      have : extra = [] := by
        cases extra with
        | nil => rfl
        | cons c l =>
          obtain ⟨q1, d, hd, q2, q3⟩ := h2 c List.mem_cons_self
          exact absurd (q2 ▸ h d hd q3) q1
      rw [hlen, this]; rfl

/-! ### Fitted estimators -/

section
variable {ext : Ext} {e : Est} {h : Heap} {c : Call} {f : Fit}

theorem fits_pairs (horder : ∀ es, (ext.order es).Perm es) (hw : c.WF e h) (hf : Fits ext e h c f) :
    (f.graph.edges.map fun d => (d.src, d.dst)).Nodup := by
  obtain ⟨sc, a, g, -, -, h3, h4, -⟩ := fits_graph horder hw hf
  have hp := fromPandas_pairs h3
  rw [h4]
  split_ifs
  · exact hp.sublist ((tillDag_spec _ _ le_rfl hp).1.map _)
  · exact hp

/-- Variables that are not categorical have one column. -/
theorem feature_single (horder : ∀ es, (ext.order es).Perm es) (hw : c.WF e h) (hf : Fits ext e h c f)
    (hcat : ∀ p ∈ usedSchema e h c.cols, p.2 ≠ .cat) : ∀ d ∈ f.graph.encs, d.idx ≠ c.cols.length → d.cols.length = 1 := by
  obtain ⟨sc, a, g, h1, h2, h3, h4, -, h6, -, -, -, h7, h8, h9, -⟩ := fits_graph horder hw hf
  have henc : f.graph.encs = g.encs := by rw [h4]; split_ifs <;> rfl
  obtain ⟨g0, x0, nm, F⟩ := fromPandas_facts horder h7 h8 (by intro l hl; cases hl; exact h9) h3
  rw [henc, F.encs]
  intro d hd hi
  have hmem : ((joined c.cols f.target sc.X sc.y).cols.getD d.idx [], d.alias) ∈ dictSet (usedSchema e h c.cols) f.target a := by
    have := F.types _ rfl
    unfold usedSchema
    rw [← this]
    exact List.mem_map.2 ⟨d, hd, rfl⟩
  rcases (dictSet_mem _ _ _ _).1 hmem with heq | ⟨hin, -⟩
  · exfalso
    simp only [Prod.mk.injEq] at heq
    have hlt := F.layout.idx_lt hd
    have hl : (joined c.cols f.target sc.X sc.y).cols[d.idx]? = some f.target := by
      have h51 := heq.1
      rw [List.getD_eq_getElem?_getD, List.getElem?_eq_getElem hlt] at h51
      rw [List.getElem?_eq_getElem hlt]
      exact congrArg some h51
    have hlast : (joined c.cols f.target sc.X sc.y).cols[c.cols.length]? = some f.target := by
      change (c.cols ++ [f.target])[c.cols.length]? = _
      simp
    obtain ⟨q1, q2⟩ := List.getElem?_eq_some_iff.1 hl
    obtain ⟨r1, r2⟩ := List.getElem?_eq_some_iff.1 hlast
    exact hi ((List.Nodup.getElem_inj_iff h7).1 (q2.trans r2.symm))
  · have := hcat _ hin
    cases d with
    | cat i g cats => exact absurd rfl this
    | _ => rfl

/-- Edges into columns of the target come from features, if no feature is categorical. -/
theorem fits_sources (hm : RespectsBounds ext.minimize) (horder : ∀ es, (ext.order es).Perm es) (hw : c.WF e h)
    (hf : Fits ext e h c f) (hns : NoSuffix (c.cols ++ [targetName c.yname])) (hcat : ∀ p ∈ usedSchema e h c.cols, p.2 ≠ .cat) :
    ∀ m, ∀ d ∈ f.graph.edges, d.dst = columnName f.target m → d.src ∈ c.cols := by
  have hone := feature_single horder hw hf hcat
  obtain ⟨sc, a, g, h1, h2, h3, h4, -, h6, -, -, -, h7, h8, h9, -⟩ := fits_graph horder hw hf
  have henc : f.graph.encs = g.encs := by rw [h4]; split_ifs <;> rfl
  have hns' := hns
  rw [← h6] at hns'
  have hnc : NoClash (c.cols ++ [f.target]) g.encs := hns'.noClash _
  rw [henc] at hone
  have hs : ∀ l, (learnArgs e.params (dictSet (schemaValue (e.params.schema.map fun r => h.schemas.getD r []) c.cols) f.target a)
      (parentsValue (e.params.tabuParents.map fun r => h.lists.getD r []) e.params.dependentTarget f.target)).schema = some l →
      (l.map Prod.fst).Nodup := by
    intro l hl
    cases hl
    exact h9
  obtain ⟨p1, -⟩ := fromPandas_permitted ext.minimize ext.init ext.fuel ext.order _ _ hm horder h7 h8 hs h3 hnc
  have hlast : (c.cols ++ [f.target])[c.cols.length]? = some f.target := by simp
  intro m d hd heq
  have hd' : d ∈ g.edges := by
    rw [h4] at hd
    rcases graph_edges_subset d hd with h | h
    · exact h
    · exact absurd (fromPandas_pairs h3) h
  obtain ⟨u, hu, v, hv, nu, nv, mu, mv, q1, q2, q3, q4, q5, q6, q7, -⟩ := p1 d hd'
  change (c.cols ++ [f.target])[u.idx]? = some nu at q3
  change (c.cols ++ [f.target])[v.idx]? = some nv at q4
  have hvi : v.idx = c.cols.length := by
    by_contra hvi
    have := hone v hv hvi
    have hmv : mv = 0 := by omega
    rw [hmv] at q6
    have hnv : nv = columnName f.target m := by rw [← heq, q6]; rfl
    rcases Nat.eq_zero_or_pos m with hm0 | hm0
    · rw [hm0] at hnv
      have hnv' : nv = f.target := hnv
      rw [hnv'] at q4
      obtain ⟨r1, r2⟩ := List.getElem?_eq_some_iff.1 q4
      obtain ⟨s1, s2⟩ := List.getElem?_eq_some_iff.1 hlast
      exact hvi ((List.Nodup.getElem_inj_iff (show (c.cols ++ [f.target]).Nodup from h7)).1 (r2.trans s2.symm))
    · exact hns' f.target (by simp) m hm0 (by rw [← hnv]; exact List.mem_of_getElem? q4)
  rw [hvi, hlast] at q4
  cases q4
  have hui : u.idx ≠ c.cols.length := by
    intro hh
    rw [hh, hlast] at q3
    exact q7.1 (Option.some.inj q3).symm
  have hu1 := hone u hu hui
  have hmu : mu = 0 := by omega
  rw [q5, hmu]
  change nu ∈ c.cols
  have hlt : u.idx < c.cols.length := by
    have := (List.getElem?_eq_some_iff.1 q3).1
    rw [List.length_append, List.length_singleton] at this
    omega
  rw [List.getElem?_append_left hlt] at q3
  exact List.mem_of_getElem? q3

/-- **C67**: after every successful `fit` the importances and coefficients are at the positions of their features, with zero for
features without an edge to the target. If no feature is categorical there is exactly one entry for each feature (a categorical feature
with `k` categories adds an entry at the end for each of its other `k - 1` columns with an edge to the target). -/
theorem fit_importances (hm : RespectsBounds ext.minimize) (horder : ∀ es, (ext.order es).Perm es) (hw : c.WF e h)
    (hf : Fits ext e h c f) (hns : NoSuffix (c.cols ++ [targetName c.yname])) :
    f.features = c.cols ∧ f.target = targetName c.yname ∧
    Aligned c.cols f.graph.edges LEdge.weight f.target (importances f) ∧ Aligned c.cols f.graph.edges LEdge.meanEffect f.target (coef f) ∧
    ((∀ p ∈ usedSchema e h c.cols, p.2 ≠ .cat) → (importances f).length = c.cols.length ∧ (coef f).length = c.cols.length) := by
  obtain ⟨sc, a, g, h1, h2, h3, h4, h5, h6, -⟩ := fits_graph horder hw hf
  have hp := fits_pairs horder hw hf
  have A := edgesToNode_aligned f LEdge.weight f.target hp
  have B := edgesToNode_aligned f LEdge.meanEffect f.target hp
  rw [h5] at A B
  refine ⟨h5, h6, A.1, B.1, fun hcat => ?_⟩
  have hs := fits_sources hm horder hw hf hns hcat 0
  unfold importances coef
  rw [List.length_map, List.length_map]
  exact ⟨A.2.2.2 hs, B.2.2.2 hs⟩

/-- The rows of a classifier: one for two classes, otherwise one for each class. -/
theorem fit_class_rows (hm : RespectsBounds ext.minimize) (horder : ∀ es, (ext.order es).Perm es) (hw : c.WF e h)
    (hf : Fits ext e h c f) (hns : NoSuffix (c.cols ++ [targetName c.yname])) (hcat : ∀ p ∈ usedSchema e h c.cols, p.2 ≠ .cat)
    (n : ℕ) (value : LEdge Str → ℝ) :
    ∃ rows, clfRows f n value = .ok rows ∧ rows.length = (if n = 2 then 1 else n) ∧
      ∀ (m : ℕ) (r : List ℝ), rows[m]? = some r → r.length = c.cols.length ∧
        Aligned c.cols f.graph.edges value (columnName f.target m) r := by
  obtain ⟨sc, a, g, h1, h2, h3, h4, h5, h6, -⟩ := fits_graph horder hw hf
  have hp := fits_pairs horder hw hf
  have hs := fits_sources hm horder hw hf hns hcat
  have hrow : ∀ m, ((edgesToNode f value (columnName f.target m)).map Prod.snd).length = c.cols.length ∧
      Aligned c.cols f.graph.edges value (columnName f.target m) ((edgesToNode f value (columnName f.target m)).map Prod.snd) := by
    intro m
    have A := edgesToNode_aligned f value (columnName f.target m) hp
    rw [h5] at A
    rw [List.length_map]
    exact ⟨A.2.2.2 (hs m), A.1⟩
  unfold clfRows
  by_cases hn : n = 2
  · rw [if_pos hn, if_pos hn]
    refine ⟨_, rfl, rfl, ?_⟩
    intro m r hr
    cases m with
    | zero =>
      have hr' : (edgesToNode f value f.target).map Prod.snd = r := Option.some.inj hr
      rw [← hr']
      exact hrow 0
    | succ m => simp at hr
  · rw [if_neg hn, if_neg hn]
    simp only
    have hall : ∀ r ∈ (List.range n).map (fun m => (edgesToNode f value (makeNodeName f.target m)).map Prod.snd), r.length = c.cols.length := by
      intro r hr
      obtain ⟨m, -, rfl⟩ := List.mem_map.1 hr
      exact (hrow m).1
    rw [if_pos]
    · refine ⟨_, rfl, by simp, ?_⟩
      intro m r hr
      rw [List.getElem?_map] at hr
      by_cases hmn : m < n
      · rw [List.getElem?_range hmn] at hr
        have hr' : (edgesToNode f value (columnName f.target m)).map Prod.snd = r := Option.some.inj hr
        rw [← hr']
        exact hrow m
      · rw [List.getElem?_eq_none (by simpa using hmn)] at hr
        cases hr
    · rw [List.all_eq_true]
      intro r hr
      rw [decide_eq_true_iff, hall r hr]
      cases hl : (List.range n).map (fun m => (edgesToNode f value (makeNodeName f.target m)).map Prod.snd) with
      | nil => rw [hl] at hr; simp at hr
      | cons r' l => exact (hall r' (by rw [hl]; exact List.mem_cons_self)).symm

/-- The nodes of the fitted graph are the columns of the variables. -/
theorem fits_nodes (horder : ∀ es, (ext.order es).Perm es) (hw : c.WF e h) (hf : Fits ext e h c f) (n : Str) :
    n ∈ f.graph.nodes ↔ ∃ d ∈ f.graph.encs, ∃ v, ∃ m < d.cols.length, (c.cols ++ [f.target])[d.idx]? = some v ∧ n = columnName v m := by
  obtain ⟨sc, a, g, h1, h2, h3, h4, -, h6, -, -, -, h7, h8, h9, -⟩ := fits_graph horder hw hf
  have henc : f.graph.encs = g.encs := by rw [h4]; split_ifs <;> rfl
  have hnod : f.graph.nodes = g.nodes := by rw [h4]; split_ifs <;> rfl
  obtain ⟨g0, x0, nm, F⟩ := fromPandas_facts horder h7 h8 (by intro l hl; cases hl; exact h9) h3
  rw [henc, F.encs, hnod, F.nodes]
  constructor
  · rintro ⟨k, hk, rfl⟩
    have hmem : k ∈ g0.encs.flatMap Enc.cols := F.layout.cols.mem_iff.2 (List.mem_range.2 hk)
    obtain ⟨d, hd, hkd⟩ := List.mem_flatMap.1 hmem
    obtain ⟨m, hm⟩ := List.getElem?_of_mem hkd
    obtain ⟨v, hv, hh⟩ := F.names d hd m k hm
    exact ⟨d, hd, v, m, (List.getElem?_eq_some_iff.1 hm).1, hv, hh⟩
  · rintro ⟨d, hd, v, m, hm, hv, rfl⟩
    obtain ⟨v', hv', hh⟩ := F.names d hd m _ (List.getElem?_eq_getElem hm)
    have heq : v = v' := Option.some.inj (hv.symm.trans hv')
    exact ⟨d.cols[m], F.layout.col_lt hd (List.getElem_mem hm), by rw [hh, heq]⟩

end

end Verif.Sklearn
