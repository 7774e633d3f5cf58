import Verif.Sklearn.PropsCoef
import Verif.Pytorch.Rows

/-!
# What the scikit-learn estimators use of the rows of the data (C117)
-/

namespace Verif.Sklearn

open Verif.Str Verif.Pytorch
open Verif.Dynotears (SameRows)

/-! ### Specification -/

/-- Specification: two fits that are the same in everything that can be observed; `R` compares the edges. -/
structure Fit.AlikeBy (R : List (LEdge Str) → List (LEdge Str) → Prop) (f f' : Fit) : Prop where
  contIdx : f.contIdx = f'.contIdx
  ssX : f.ssX = f'.ssX
  ssY : f.ssY = f'.ssY
  features : f.features = f'.features
  target : f.target = f'.target
  graph : f.graph.AlikeBy R f'.graph
  ready : f.ready = f'.ready

/-- Specification: the same edges if edges are iterated in the same way; without `enforce_dag`, which breaks ties by the order of
iteration, in any case the same up to the order. -/
def SameEdgesUnless (dag : Bool) (order order' : Visit) (l l' : List (LEdge Str)) : Prop :=
  (dag = false → l.Perm l') ∧ (order'.edges = order.edges → l = l')

/-- Specification: a measure of spread that depends on relative frequencies only, like the standard deviation. -/
def FrequencyOnly (std : List ℚ → ℚ) : Prop := ∀ l l', SameRows l l' → std l = std l'

/-! ### Fitting -/

theorem sameRows_map {α β : Type} {R R' : List α} (h : SameRows R R') (f : α → β) : SameRows (R.map f) (R'.map f) := by
  obtain ⟨m, m', hm, hm', h⟩ := h
  exact ⟨m, m', hm, hm', Scaled.map h f⟩

theorem sum_rat {α : Type} (f : α → ℚ) (R : List α) (m : ℕ) : (((List.replicate m R).flatten).map f).sum = m * (R.map f).sum := by
  induction m with
  | zero => simp
  | succ m ih =>
    rw [List.replicate_succ, List.flatten_cons, List.map_append, List.sum_append, ih]
    push_cast
    ring

theorem mean_rat {R R' : List ℚ} (h : SameRows R R') : R.sum / R.length = R'.sum / R'.length := by
  obtain ⟨m, m', hm, hm', hp⟩ := h
  have h1 := (hp.map id).sum_eq
  have h2 := hp.length_eq
  rw [sum_rat, sum_rat, List.map_id, List.map_id] at h1
  simp only [List.length_flatten, List.map_replicate, List.sum_replicate, smul_eq_mul] at h2
  have h2' : (m : ℚ) * R.length = m' * R'.length := by exact_mod_cast h2
  have hm1 : (m : ℚ) ≠ 0 := by exact_mod_cast hm
  have hm2 : (m' : ℚ) ≠ 0 := by exact_mod_cast hm'
  rw [← mul_div_mul_left R.sum _ hm1, h1, h2', mul_div_mul_left _ _ hm2]

theorem scalerFit_same {std : List ℚ → ℚ} (hstd : FrequencyOnly std) {l l' : List ℚ} (h : SameRows l l') :
    scalerFit std l = scalerFit std l' := by
  unfold scalerFit
  rw [mean_rat h, hstd l l' h]

section
variable {X X' : List (List ℚ)} {y y' : List ℚ} (hl : y.length = X.length) (hl' : y'.length = X'.length)
  (h : SameRows (X.zip y) (X'.zip y'))
include hl hl' h

theorem sameRows_fst : SameRows X X' := by
  have := sameRows_map h Prod.fst
  rwa [List.map_fst_zip hl.ge, List.map_fst_zip hl'.ge] at this

theorem sameRows_snd : SameRows y y' := by
  have := sameRows_map h Prod.snd
  rwa [List.map_snd_zip hl.le, List.map_snd_zip hl'.le] at this

theorem scaleValues_same {std : List ℚ → ℚ} (hstd : FrequencyOnly std) (on : Bool) (tt : Option Alias) (schema : List (Str × Alias))
    (cols : List Str) :
    SameOutcome (fun s s' => s.contIdx = s'.contIdx ∧ s.ssX = s'.ssX ∧ s.ssY = s'.ssY ∧ SameRows (s.X.zip s.y) (s'.X.zip s'.y))
      (scaleValues std on tt schema cols X y) (scaleValues std on tt schema cols X' y') := by
  unfold scaleValues
  cases on with
  | false => exact .ok ⟨rfl, rfl, rfl, h⟩
  | true =>
    simp only [if_true]
    cases contColumns cols schema with
    | error e => exact .error e
    | ok idxs =>
      simp only
      split
      · exact .error _
      have hss : (idxs.map fun i => scalerFit std (X.map fun r => r.getD i 0)) =
          idxs.map fun i => scalerFit std (X'.map fun r => r.getD i 0) :=
        List.map_congr_left fun i _ => scalerFit_same hstd (sameRows_map (sameRows_fst hl hl' h) _)
      have hy := scalerFit_same hstd (sameRows_snd hl hl' h)
      rw [hss, hy]
      split
      · refine .ok ⟨rfl, rfl, rfl, ?_⟩
        simp only
        rw [List.zip_map, List.zip_map]
        exact sameRows_map h _
      · refine .ok ⟨rfl, rfl, rfl, ?_⟩
        simp only
        rw [← List.map_id y, ← List.map_id y', List.zip_map, List.zip_map]
        exact sameRows_map h _

end

theorem pureFit_same {ext : Ext} {order' : Visit} (ho : ∀ es, (ext.order es).Perm es) (ho' : ∀ es, (order' es).Perm es)
    (hstd : FrequencyOnly ext.std) (p : Params) (tt : Option Alias) (schema : Option (List (Str × Alias))) (parents : Option (List Str))
    {cols : List Str} {X X' : List (List ℚ)} {y y' : List ℚ} (yname : Option Str) (hw : WellFormed cols yname X schema)
    (hl : y.length = X.length) (hl' : y'.length = X'.length) (h : SameRows (X.zip y) (X'.zip y')) :
    SameOutcome (Fit.AlikeBy (SameEdgesUnless p.enforceDag ext.order order')) (pureFit ext p tt schema parents cols X y yname)
      (pureFit { ext with order := order' } p tt schema parents cols X' y' yname) := by
  have h0 : (X.length = 0 ∨ cols.length = 0 ∨ y.length ≠ X.length) ↔ (X'.length = 0 ∨ cols.length = 0 ∨ y'.length ≠ X'.length) := by
    rw [(sameRows_fst hl hl' h).empty]
    simp [hl, hl']
  unfold pureFit
  by_cases hc : X.length = 0 ∨ cols.length = 0 ∨ y.length ≠ X.length
  · rw [if_pos hc, if_pos (h0.1 hc)]
    exact .error _
  rw [if_neg hc, if_neg (fun h' => hc (h0.2 h'))]
  have hsv := scaleValues_same hl hl' h hstd p.standardize tt (schemaValue schema cols) cols
  change SameOutcome _ _ (match scaleValues ext.std p.standardize tt (schemaValue schema cols) cols X' y' with
    | .error e => .error e
    | .ok sc => _)
  generalize hsc : scaleValues ext.std p.standardize tt (schemaValue schema cols) cols X y = r at hsv
  generalize hsc' : scaleValues ext.std p.standardize tt (schemaValue schema cols) cols X' y' = r' at hsv
  cases hsv with
  | error e => exact .error e
  | @ok sc sc' hsv =>
    obtain ⟨e1, e2, e3, e4⟩ := hsv
    cases tt with
    | none => exact .error _
    | some a =>
      simp only
      have hrows : SameRows (joined cols (targetName yname) sc.X sc.y).rows (joined cols (targetName yname) sc'.X sc'.y).rows := by
        have hz : ∀ (X : List (List ℚ)) (y : List ℚ), List.zipWith (fun r v => r ++ [v]) X y = (X.zip y).map fun q => q.1 ++ [q.2] := by
          intro X y
          rw [List.zip, List.map_zipWith]
        change SameRows (List.zipWith _ _ _) (List.zipWith _ _ _)
        rw [hz, hz]
        exact sameRows_map e4 _
      have hwf : (joined cols (targetName yname) sc.X sc.y).values.WF := by
        change ∀ r ∈ List.zipWith (fun r v => r ++ [v]) sc.X sc.y, r.length = (cols ++ [targetName yname]).length
        rw [List.length_append]
        refine zipWith_wf fun r hr => ?_
        have hsh := (scaleValues_shape hsc).1
        have : r.length ∈ sc.X.map List.length := List.mem_map_of_mem hr
        rw [hsh] at this
        obtain ⟨r', hr', e⟩ := List.mem_map.1 this
        rw [← e]; exact hw.rect r' hr'
      have hg := fromPandas_frequencies ext.minimize ext.init ext.fuel ho ho' hwf
        (learnArgs p (dictSet (schemaValue schema cols) (targetName yname) a) (parentsValue parents p.dependentTarget (targetName yname)))
        (by
          intro l hll
          cases hll
          exact dictSet_nodup (schemaValue_nodup hw.nodup hw.dict) _ _)
        (X' := joined cols (targetName yname) sc'.X sc'.y) rfl rfl hrows
      generalize fromPandas ext.minimize ext.init ext.fuel ext.order (joined cols (targetName yname) sc.X sc.y)
        (learnArgs p (dictSet (schemaValue schema cols) (targetName yname) a)
          (parentsValue parents p.dependentTarget (targetName yname))) = r at hg
      generalize fromPandas ext.minimize ext.init ext.fuel order' (joined cols (targetName yname) sc'.X sc'.y)
        (learnArgs p (dictSet (schemaValue schema cols) (targetName yname) a)
          (parentsValue parents p.dependentTarget (targetName yname))) = r' at hg
      cases hg with
      | error e => exact .error e
      | @ok g g' hg =>
        refine .ok ⟨e1, e2, e3, rfl, rfl, ?_, rfl⟩
        simp only
        have he := hg.edges
        cases hdag : p.enforceDag with
        | false =>
          rw [if_neg Bool.false_ne_true, if_neg Bool.false_ne_true]
          exact ⟨hg.nodes, ⟨fun _ => he.1, he.2⟩, hg.bias, hg.distType, hg.collapsed, hg.arch, hg.encs, hg.params, hg.warned, hg.rho⟩
        | true =>
          rw [if_pos rfl, if_pos rfl]
          exact ⟨hg.nodes, ⟨fun h => absurd h (by decide), fun h => by rw [he.2 h]⟩, hg.bias, hg.distType, hg.collapsed, hg.arch, hg.encs,
            hg.params, hg.warned, hg.rho⟩

/-! ### Using what was fitted -/

theorem encFitted_alike {e e' : Enc} (h : e.Alike e') : encFitted e = encFitted e' := by
  cases e <;> cases e' <;> simp only [Enc.Alike] at h <;> first | rw [h] | cases h
  rename_i h1 h2
  rw [encFitted, encFitted, h1, h2.2.2]

theorem transformType_alike {e e' : Enc} (h : e.Alike e') (X : Frame) : transformType e X = transformType e' X := by
  cases e <;> cases e' <;> simp only [Enc.Alike] at h <;> first | rw [h] | cases h
  rename_i h1 h2
  rw [transformType, transformType, h1, h2.1]

theorem transformAll_alike {es es' : List Enc} (h : List.Forall₂ Enc.Alike es es') (X : Frame) : transformAll es X = transformAll es' X := by
  induction h generalizing X with
  | nil => rfl
  | cons h1 _ ih =>
    rw [transformAll, transformAll, transformType_alike h1]
    cases transformType _ X with
    | error e => rfl
    | ok Y => exact ih Y

theorem basePredict_alike {R : List (LEdge Str) → List (LEdge Str) → Prop} (e : Est) {f f' : Fit} (h : f.AlikeBy R f') (isInt : Bool) (X : List (List ℚ)) :
    basePredict { e with fitted := some f } isInt X = basePredict { e with fitted := some f' } isInt X := by
  unfold basePredict
  simp only
  have hrec : ∀ Y, reconstructData f.graph.arch f.graph.encs f.graph.params Y =
      reconstructData f'.graph.arch f'.graph.encs f'.graph.params Y := by
    intro Y
    unfold reconstructData reconstructRow
    rw [transformAll_alike h.graph.encs, h.graph.arch, h.graph.params, map_alike h.graph.encs fun _ _ he => encFitted_alike he]
  rw [h.ready, h.contIdx, h.ssX, h.features, hrec, h.ssY, h.target]
  have hd := h.graph.distType f'.target
  generalize f.graph.distType f'.target = o at hd
  generalize f'.graph.distType f'.target = o' at hd
  cases hd with
  | none => rfl
  | some hd => simp only [encFitted_alike hd]

theorem oneDim_alike {o o' : Option Enc} (h : Option.Rel Enc.Alike o o') : oneDim o = oneDim o' := by
  cases h with
  | none => rfl
  | @some e e' h => cases e <;> cases e' <;> simp only [Enc.Alike] at h <;> first | rfl | cases h

theorem predictProba_alike {L : Type} {R : List (LEdge Str) → List (LEdge Str) → Prop} (e : Est) (classes : List L) {f f' : Fit} (h : f.AlikeBy R f') (isInt : Bool) (X : List (List ℚ)) :
    predictProba ⟨{ e with fitted := some f }, classes⟩ isInt X = predictProba ⟨{ e with fitted := some f' }, classes⟩ isInt X := by
  unfold predictProba
  simp only
  rw [basePredict_alike e h]
  have : oneDim (f.graph.distType f.target) = oneDim (f'.graph.distType f'.target) := by
    rw [h.target]
    exact oneDim_alike (h.graph.distType _)
  simp only [Option.bind_some, this]

theorem interceptOf_alike {R : List (LEdge Str) → List (LEdge Str) → Prop} {f f' : Fit} (h : f.AlikeBy R f') :
    interceptOf f = interceptOf f' := by
  unfold interceptOf
  rw [h.graph.nodes, h.graph.bias]

/-- Specification: the same values at the first `n` positions, and the same further values, perhaps in another order. -/
def SameValues {α : Type} (n : ℕ) (l l' : List α) : Prop := l.take n = l'.take n ∧ l.Perm l'

theorem edgesToNode_nodup (f : Fit) (value : LEdge Str → ℝ) (name : Str) (hn : f.features.Nodup) :
    ((edgesToNode f value name).map Prod.fst).Nodup := by
  unfold edgesToNode
  have key : ∀ (es : List (LEdge Str)) (l : List (Str × ℝ)), (l.map Prod.fst).Nodup →
      ((es.foldl (fun l e => if e.dst = name then seriesSet l e.src (value e) else l) l).map Prod.fst).Nodup := by
    intro es
    induction es with
    | nil => intro l h; exact h
    | cons d es ih =>
      intro l h
      rw [List.foldl_cons]
      refine ih _ ?_
      split_ifs
      · rw [seriesSet_keys]
        split_ifs with hi
        · exact h
        · rw [List.nodup_append]
          refine ⟨h, by simp, ?_⟩
          intro a ha b hb
          rw [List.mem_singleton] at hb
          rintro rfl
          exact hi (hb ▸ ha)
      · exact h
  refine key _ _ ?_
  rw [List.map_map]
  exact (List.map_id _).symm ▸ hn

theorem edgeValue_unique {es es' : List (LEdge Str)} (hp : es.Perm es') (hn : (es.map fun d => (d.src, d.dst)).Nodup)
    {value : LEdge Str → ℝ} {c n : Str} {v v' : ℝ} (h : EdgeValue es value c n v) (h' : EdgeValue es' value c n v') : v = v' := by
  rcases h with ⟨d, hd, d1, d2, rfl⟩ | ⟨h1, rfl⟩ <;> rcases h' with ⟨d', hd', d1', d2', rfl⟩ | ⟨h1', rfl⟩
  · rw [List.inj_on_of_nodup_map hn hd (hp.mem_iff.2 hd') (by rw [d1, d2, d1', d2'])]
  · exact absurd ⟨d1, d2⟩ (h1' d (hp.mem_iff.1 hd))
  · exact absurd ⟨d1', d2'⟩ (h1 d' (hp.mem_iff.2 hd'))
  · rfl

/-- The order of the edges decides on the order of the entries that are not for features only. -/
theorem edgesToNode_perm {f f' : Fit} (hfe : f.features = f'.features) (hnd : f.features.Nodup) (hp : f.graph.edges.Perm f'.graph.edges)
    (hn : (f.graph.edges.map fun d => (d.src, d.dst)).Nodup) (value : LEdge Str → ℝ) (name : Str) :
    SameValues f.features.length (edgesToNode f value name) (edgesToNode f' value name) := by
  have hn' : (f'.graph.edges.map fun d => (d.src, d.dst)).Nodup := (hp.map _).nodup_iff.1 hn
  obtain ⟨x, x1, x2, x3⟩ := edgesToNode_keys f value name
  obtain ⟨x', y1, y2, y3⟩ := edgesToNode_keys f' value name
  have hv := edgesToNode_values f value name hn
  have hv' := edgesToNode_values f' value name hn'
  have hk := edgesToNode_nodup f value name hnd
  have hk' := edgesToNode_nodup f' value name (hfe ▸ hnd)
  have hkeys : ∀ c, c ∈ (edgesToNode f value name).map Prod.fst ↔ c ∈ (edgesToNode f' value name).map Prod.fst := by
    intro c
    rw [x1, y1, ← hfe, List.mem_append, List.mem_append]
    constructor
    · rintro (h | h)
      · exact Or.inl h
      · obtain ⟨-, d, hd, d1, d2⟩ := x2 c h
        have := y3 d (hp.mem_iff.1 hd) d2
        rwa [d1, ← hfe, List.mem_append] at this
    · rintro (h | h)
      · exact Or.inl h
      · obtain ⟨-, d, hd, d1, d2⟩ := y2 c h
        have := x3 d (hp.mem_iff.2 hd) d2
        rwa [d1, List.mem_append] at this
  have hmem : ∀ q, q ∈ edgesToNode f value name ↔ q ∈ edgesToNode f' value name := by
    intro q
    constructor
    · intro hq
      obtain ⟨q', hq', he⟩ := List.mem_map.1 ((hkeys q.1).1 (List.mem_map_of_mem hq))
      have := edgeValue_unique hp hn (hv q hq) (he ▸ hv' q' hq')
      have hqq : q' = q := Prod.ext he this.symm
      exact hqq ▸ hq'
    · intro hq
      obtain ⟨q', hq', he⟩ := List.mem_map.1 ((hkeys q.1).2 (List.mem_map_of_mem hq))
      have := edgeValue_unique hp hn (he ▸ hv q' hq') (hv' q hq)
      have hqq : q' = q := Prod.ext he this
      exact hqq ▸ hq'
  refine ⟨?_, ?_⟩
  · refine List.ext_getElem? fun k => ?_
    by_cases hlt : k < f.features.length
    · have h1 : ((edgesToNode f value name).map Prod.fst)[k]? = ((edgesToNode f' value name).map Prod.fst)[k]? := by
        rw [x1, y1, ← hfe, List.getElem?_append_left hlt, List.getElem?_append_left hlt]
      rw [List.getElem?_take_of_lt hlt, List.getElem?_take_of_lt hlt]
      rw [List.getElem?_map, List.getElem?_map] at h1
      cases h2 : (edgesToNode f value name)[k]? with
      | none =>
        rw [h2] at h1
        cases h3 : (edgesToNode f' value name)[k]? with
        | none => rfl
        | some q' => rw [h3] at h1; cases h1
      | some q =>
        rw [h2] at h1
        cases h3 : (edgesToNode f' value name)[k]? with
        | none => rw [h3] at h1; cases h1
        | some q' =>
          rw [h3] at h1
          have he : q.1 = q'.1 := Option.some.inj h1
          have := edgeValue_unique hp hn (hv q (List.mem_of_getElem? h2)) (he ▸ hv' q' (List.mem_of_getElem? h3))
          rw [Prod.ext he this]
    · rw [List.getElem?_take_eq_none (by omega), List.getElem?_take_eq_none (by omega)]
  · exact (List.perm_ext_iff_of_nodup (List.Nodup.of_map _ hk) (List.Nodup.of_map _ hk')).2 hmem

theorem sameValues_map {α β : Type} {n : ℕ} {l l' : List α} (h : SameValues n l l') (g : α → β) : SameValues n (l.map g) (l'.map g) :=
  ⟨by rw [← List.map_take, ← List.map_take, h.1], h.2.map g⟩

/-! ### The theorems -/

/-- Specification: the fitted estimators report the same edges, and the same importances and coefficients at the positions of the
features (entries for other columns follow, in the order in which the edges are iterated). -/
def SameReports (f f' : Fit) : Prop :=
  f.graph.edges.Perm f'.graph.edges ∧ SameValues f.features.length (importances f) (importances f') ∧
    SameValues f.features.length (coef f) (coef f') ∧
    ∀ n value, SameOutcome (List.Forall₂ (SameValues f.features.length)) (clfRows f n value) (clfRows f' n value)

/-- Specification: the fitted estimators report the same intercepts. -/
def SameIntercepts (f f' : Fit) : Prop :=
  interceptOf f f.target = interceptOf f' f'.target ∧ ∀ n, clfIntercept f n = clfIntercept f' n

theorem sameIntercepts_of_alike {R : List (LEdge Str) → List (LEdge Str) → Prop} {f f' : Fit} (h : f.AlikeBy R f') : SameIntercepts f f' := by
  refine ⟨?_, fun n => ?_⟩
  · rw [interceptOf_alike h, h.target]
  · unfold clfIntercept; rw [interceptOf_alike h, h.target]

theorem sameReports_of_perm {f f' : Fit} (hfe : f.features = f'.features) (ht : f.target = f'.target) (hnd : f.features.Nodup)
    (hp : f.graph.edges.Perm f'.graph.edges) (hn : (f.graph.edges.map fun d => (d.src, d.dst)).Nodup) : SameReports f f' := by
  have hs := fun value name => sameValues_map (edgesToNode_perm hfe hnd hp hn value name) Prod.snd
  refine ⟨hp, ?_, ?_, fun n value => ?_⟩
  · unfold importances; rw [← ht]; exact hs _ _
  · unfold coef; rw [← ht]; exact hs _ _
  · unfold clfRows
    rw [← ht]
    split
    · exact .ok (.cons (hs _ _) .nil)
    · simp only
      have hl : ((List.range n).map fun m => (edgesToNode f value (makeNodeName f.target m)).map Prod.snd).map List.length =
          ((List.range n).map fun m => (edgesToNode f' value (makeNodeName f.target m)).map Prod.snd).map List.length := by
        rw [List.map_map, List.map_map]
        exact List.map_congr_left fun m _ => (hs _ _).2.length_eq
      have hall : ∀ l l' : List (List ℝ), l.map List.length = l'.map List.length →
          (l.all fun r => decide (r.length = (l.headD []).length)) = l'.all fun r => decide (r.length = (l'.headD []).length) := by
        intro l l' h
        have hh : (l.headD []).length = (l'.headD []).length := by
          cases l with
          | nil => cases l' with
            | nil => rfl
            | cons b l' => cases h
          | cons a l => cases l' with
            | nil => cases h
            | cons b l' => exact (List.cons.inj h).1
        rw [hh]
        have e : ∀ l : List (List ℝ), (l.all fun r => decide (r.length = (l'.headD []).length)) =
            (l.map List.length).all fun k => decide (k = (l'.headD []).length) := by
          intro l; rw [List.all_map]; rfl
        rw [e, e, h]
      rw [hall _ _ hl]
      split
      · refine .ok ?_
        rw [List.forall₂_map_left_iff, List.forall₂_map_right_iff, List.forall₂_same]
        exact fun m _ => hs _ _
      · exact .error _

/-- The two fits of `baseFit_frequencies`. -/
theorem baseFit_same {ext : Ext} {order' : Visit} (ho : ∀ es, (ext.order es).Perm es) (ho' : ∀ es, (order' es).Perm es)
    (hstd : FrequencyOnly ext.std) (e : Est) {h h' : Heap} {c : Call} {x' y' : ℕ} (hw : c.WF e h) (hls : h'.lists = h.lists)
    (hsc : h'.schemas = h.schemas)
    (hl : (h.series.getD c.y []).length = (h.tables.getD c.x []).length)
    (hl' : (h'.series.getD y' []).length = (h'.tables.getD x' []).length)
    (hr : SameRows ((h.tables.getD c.x []).zip (h.series.getD c.y [])) ((h'.tables.getD x' []).zip (h'.series.getD y' []))) :
    (∃ f f', f.AlikeBy (SameEdgesUnless e.params.enforceDag ext.order order') f' ∧ SameIntercepts f f' ∧
      ((e.params.enforceDag = true → order'.edges = ext.order.edges) → SameReports f f') ∧ (baseFit ext e h c).2 = ({ e with fitted := some f }, none) ∧
      (baseFit { ext with order := order' } e h' { c with x := x', y := y' }).2 = ({ e with fitted := some f' }, none)) ∨
    ∃ err, (baseFit ext e h c).2.2 = some err ∧ (baseFit { ext with order := order' } e h' { c with x := x', y := y' }).2.2 = some err := by
  have h1 := (baseFit_spec ext e h c).2
  have h2 := (baseFit_spec { ext with order := order' } e h' { c with x := x', y := y' }).2
  have h3 := pureFit_same ho ho' hstd e.params e.targetType (e.params.schema.map fun r => h.schemas.getD r [])
    (e.params.tabuParents.map fun r => h.lists.getD r []) c.yname hw hl hl' hr
  rw [hls, hsc] at h2
  simp only at h2
  generalize pureFit ext e.params e.targetType (e.params.schema.map fun r => h.schemas.getD r [])
    (e.params.tabuParents.map fun r => h.lists.getD r []) c.cols (h.tables.getD c.x []) (h.series.getD c.y []) c.yname = r at h1 h3
  generalize pureFit { ext with order := order' } e.params e.targetType (e.params.schema.map fun r => h.schemas.getD r [])
    (e.params.tabuParents.map fun r => h.lists.getD r []) c.cols (h'.tables.getD x' []) (h'.series.getD y' []) c.yname = r' at h2 h3
  cases h3 with
  | error err => exact Or.inr ⟨err, by rw [h1], by rw [h2]⟩
  | @ok f f' hf =>
    refine Or.inl ⟨_, _, hf, sameIntercepts_of_alike hf, fun ht => ?_, h1, h2⟩
    have hfe := (fits_graph ho hw h1).choose_spec.choose_spec.choose_spec.2.2.2.2.1
    refine sameReports_of_perm hf.features hf.target (hfe ▸ hw.nodup) ?_ (fits_pairs ho hw h1)
    cases hdag : e.params.enforceDag with
    | false => exact hf.graph.edges.1 hdag
    | true => exact hf.graph.edges.2 (ht hdag) ▸ List.Perm.refl _

/-- **C117** for `DAGRegressor`: if in two data sets the same rows (with their targets) occur with the same relative frequencies, then
`fit` raises the same for both, or it succeeds for both; then all predictions and intercepts are the same, and so are the edges,
importances and coefficients (with `enforce_dag`, which breaks ties by the order in which edges are iterated, if this order is the same). -/
theorem reg_frequencies {ext : Ext} {order' : Visit} (ho : ∀ es, (ext.order es).Perm es) (ho' : ∀ es, (order' es).Perm es)
    (hstd : FrequencyOnly ext.std) (e : Est) {h : Heap} {c : Call} {x' y' : ℕ} (hw : c.WF e h)
    (hl : (h.series.getD c.y []).length = (h.tables.getD c.x []).length)
    (hl' : (h.series.getD y' []).length = (h.tables.getD x' []).length)
    (hr : SameRows ((h.tables.getD c.x []).zip (h.series.getD c.y [])) ((h.tables.getD x' []).zip (h.series.getD y' []))) :
    let fit₁ := regFit ext e h c
    let fit₂ := regFit { ext with order := order' } e h { c with x := x', y := y' }
    fit₁.2.2 = fit₂.2.2 ∧
    (fit₁.2.2 = none → (∀ isInt X, basePredict fit₁.2.1 isInt X = basePredict fit₂.2.1 isInt X) ∧
      ∃ f f', fit₁.2.1.fitted = some f ∧ fit₂.2.1.fitted = some f' ∧ SameIntercepts f f' ∧
        ((e.params.enforceDag = true → order'.edges = ext.order.edges) → SameReports f f')) := by
  intro fit₁ fit₂
  rcases baseFit_same ho ho' hstd { e with targetType := some (e.targetType.getD .cont) } hw rfl rfl hl hl' hr with
    ⟨f, f', hf, hi, hs, h1, h2⟩ | ⟨err, h1, h2⟩
  · change fit₁.2 = _ at h1
    change fit₂.2 = _ at h2
    rw [h1, h2]
    exact ⟨rfl, fun _ => ⟨fun isInt X => basePredict_alike _ hf isInt X, f, f', rfl, rfl, hi, hs⟩⟩
  · change fit₁.2.2 = _ at h1
    change fit₂.2.2 = _ at h2
    rw [h1, h2]
    exact ⟨rfl, fun h => by cases h⟩

theorem labelClasses_congr {L : Type} [LinearOrder L] {y y' : List L} (h : ∀ v, v ∈ y ↔ v ∈ y') : labelClasses y = labelClasses y' := by
  obtain ⟨s1, m1⟩ := labelClasses_spec y
  obtain ⟨s2, m2⟩ := labelClasses_spec y'
  refine List.Perm.eq_of_pairwise (fun a b _ _ h1 h2 => absurd h1 (lt_asymm h2)) s1 s2 ?_
  rw [List.perm_ext_iff_of_nodup (s1.imp fun h => h.ne) (s2.imp fun h => h.ne)]
  intro v
  rw [m1, m2, h]

/-- **C117** for `DAGClassifier`: as for the regressor, with labels of any type. -/
theorem clf_frequencies {L : Type} [LinearOrder L] {ext : Ext} {order' : Visit} (ho : ∀ es, (ext.order es).Perm es)
    (ho' : ∀ es, (order' es).Perm es) (hstd : FrequencyOnly ext.std) (k : Clf L) {h : Heap} {cols : List Str} {x x' : ℕ} {yname : Option Str}
    {y y' : List L} (hw : WellFormed cols yname (h.tables.getD x []) (k.est.params.schema.map fun r => h.schemas.getD r []))
    (hl : y.length = (h.tables.getD x []).length) (hl' : y'.length = (h.tables.getD x' []).length)
    (hr : SameRows ((h.tables.getD x []).zip y) ((h.tables.getD x' []).zip y')) :
    let fit₁ := clfFit ext k h cols x yname y
    let fit₂ := clfFit { ext with order := order' } k h cols x' yname y'
    fit₁.2.2 = fit₂.2.2 ∧ fit₁.2.1.classes = fit₂.2.1.classes ∧
    (fit₁.2.2 = none → (∀ isInt X, predictProba fit₁.2.1 isInt X = predictProba fit₂.2.1 isInt X ∧
        clfPredict fit₁.2.1 isInt X = clfPredict fit₂.2.1 isInt X) ∧
      ∃ f f', fit₁.2.1.est.fitted = some f ∧ fit₂.2.1.est.fitted = some f' ∧ SameIntercepts f f' ∧
        ((k.est.params.enforceDag = true → order'.edges = ext.order.edges) → SameReports f f')) := by
  intro fit₁ fit₂
  have hy : ∀ v, v ∈ y ↔ v ∈ y' := by
    have := sameRows_map hr Prod.snd
    rw [List.map_snd_zip hl.le, List.map_snd_zip hl'.le] at this
    obtain ⟨m, m', hm, hm', hp⟩ := this
    exact Scaled.mem hm hm' hp
  have hcl := labelClasses_congr hy
  have e1 : fit₁ = clfFit ext k h cols x yname y := rfl
  have e2 : fit₂ = clfFit { ext with order := order' } k h cols x' yname y' := rfl
  unfold clfFit at e1 e2
  simp only [← hcl] at e1 e2
  by_cases h0 : labelClasses y = []
  · rw [if_pos h0] at e1 e2
    rw [e1, e2]
    exact ⟨rfl, rfl, fun h => by cases h⟩
  rw [if_neg h0] at e1 e2
  by_cases h2 : (labelClasses y).length < 2
  · rw [if_pos h2] at e1 e2
    rw [e1, e2]
    exact ⟨rfl, rfl, fun h => by cases h⟩
  rw [if_neg h2] at e1 e2
  simp only [List.length_append, List.length_singleton, Nat.add_sub_cancel] at e1 e2
  have hget : ∀ l : List ℚ, (h.series ++ [l]).getD h.series.length [] = l := fun l => getD_append_last _ _ _
  have hb := baseFit_same (ext := ext) (order' := order') ho ho' hstd
    { k.est with targetType := some (clfType k.est.targetType (labelClasses y).length) }
    (h := { h with series := h.series ++ [y.map fun v => ((labelClasses y).idxOf v : ℚ)] })
    (h' := { h with series := h.series ++ [y'.map fun v => ((labelClasses y).idxOf v : ℚ)] })
    (c := ⟨cols, x, h.series.length, yname⟩) (x' := x') (y' := h.series.length) hw rfl rfl
    (by simp only [hget, List.length_map]; exact hl) (by simp only [hget, List.length_map]; exact hl')
    (by
      simp only [hget]
      rw [← List.map_id (h.tables.getD x []), ← List.map_id (h.tables.getD x' []), List.zip_map, List.zip_map]
      exact sameRows_map hr _)
  simp only at hb
  rcases hb with ⟨f, f', hf, hi, hs, h1, h2⟩ | ⟨err, h1, h2⟩
  · rw [e1, e2]
    simp only [h1, h2]
    refine ⟨trivial, trivial, fun _ => ⟨fun isInt X => ?_, f, f', rfl, rfl, hi, hs⟩⟩
    have hp := predictProba_alike { k.est with targetType := some (clfType k.est.targetType (labelClasses y).length) } (labelClasses y) hf
      isInt X
    refine ⟨hp, ?_⟩
    unfold clfPredict
    simp only at hp
    rw [hp]
  · rw [e1, e2]
    simp only [h1, h2]
    exact ⟨trivial, trivial, fun h => by cases h⟩

end Verif.Sklearn
