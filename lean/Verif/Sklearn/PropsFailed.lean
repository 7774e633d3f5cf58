import Verif.Sklearn.PropsRefit

/-!
# The constructors, and what a `fit` that raises leaves behind (C65, C96)
-/

namespace Verif.Sklearn

open Verif.Str Verif.Pytorch

/-! ### The constructors and the type of the target -/

/-- **C65**: a regressor can be made for no given type, `cont` and `poiss`; it has the given arguments and no fit. For all other types the
constructor raises `NotImplementedError`. -/
theorem new_regressor (p : Params) (t : Option Alias) :
    (t = none ∨ t = some .cont ∨ t = some .poiss → newEst regTypes p t = .ok ⟨p, t, none⟩) ∧
    (t = some .bin ∨ t = some .cat ∨ t = some .ord → newEst regTypes p t = .error .notImplemented) := by
  constructor
  · rintro (rfl | rfl | rfl) <;> rfl
  · rintro (rfl | rfl | rfl) <;> rfl

/-- **C65**: a classifier can be made for no given type, `bin`, `cat` and `ord`. -/
theorem new_classifier (p : Params) (t : Option Alias) :
    (t = none ∨ t = some .bin ∨ t = some .cat ∨ t = some .ord → newEst clfTypes p t = .ok ⟨p, t, none⟩) ∧
    (t = some .cont ∨ t = some .poiss → newEst clfTypes p t = .error .notImplemented) := by
  constructor
  · rintro (rfl | rfl | rfl | rfl) <;> rfl
  · rintro (rfl | rfl) <;> rfl

/-- **C65**: in the graph of a fitted regressor the node of the target has the type given to the constructor, or else `cont`. -/
theorem reg_target_type {ext : Ext} (horder : ∀ es, (ext.order es).Perm es) {e e' : Est} {h h' : Heap} {c : Call}
    (hfit : regFit ext e h c = (h', e', none)) (hw : c.WF e h)
    (hkey : ∀ r, e.params.schema = some r → targetName c.yname ∉ (h.schemas.getD r []).map Prod.fst)
    (hns : NoSuffix (c.cols ++ [targetName c.yname])) :
    ∃ f t, e'.fitted = some f ∧ f.target = targetName c.yname ∧ f.features = c.cols ∧ f.graph.distType f.target = some t ∧
      t.idx = c.cols.length ∧ (∀ a, e.targetType = some a → t.alias = a) ∧ (e.targetType = none → t.alias = .cont) := by
  unfold regFit at hfit
  rcases baseFit_outcome ext { e with targetType := some (e.targetType.getD .cont) } h c with ⟨-, f, hf⟩ | ⟨err, F, hf⟩
  · have hf' := hf
    unfold Fits at hf'
    rw [Prod.ext_iff, hf'] at hfit
    have he' := hfit.2
    simp only [Prod.mk.injEq, and_true] at he'
    have hw' : c.WF { e with targetType := some (e.targetType.getD .cont) } h := hw
    obtain ⟨sc, a, g, -, -, -, -, h5, h6, -⟩ := fits_graph horder hw' hf
    obtain ⟨es, t, e1, e2, e3, -⟩ := fits_target_last horder hw' hf (by rw [h6]; exact hkey)
    have hnt := fits_node_type horder hw' hf (by rw [h6]; exact hns.noClash _) (t := t) (by rw [e1]; simp) e2
    have e3' : t.alias = e.targetType.getD .cont := Option.some.inj e3
    refine ⟨f, t, by rw [← he'], h6, h5, hnt, e2, ?_, ?_⟩
    · intro a ha
      rw [e3', ha]
      rfl
    · intro ha
      rw [e3', ha]
      rfl
  · rw [Prod.ext_iff, hf] at hfit
    simp at hfit

/-- **C65**: in the graph of a fitted classifier the node of the target has the type given to the constructor or chosen before; else
`bin` for two classes and `cat` for more. -/
theorem clf_target_type {L : Type} [LinearOrder L] {ext : Ext} (horder : ∀ es, (ext.order es).Perm es) {k k' : Clf L} {h h' : Heap}
    {cols : List Str} {x : ℕ} {yname : Option Str} {y : List L} (hfit : clfFit ext k h cols x yname y = (h', k', none))
    (hw : WellFormed cols yname (h.tables.getD x []) (k.est.params.schema.map fun r => h.schemas.getD r []))
    (hkey : ∀ r, k.est.params.schema = some r → targetName yname ∉ (h.schemas.getD r []).map Prod.fst)
    (hns : NoSuffix (cols ++ [targetName yname])) :
    ∃ f t, k'.est.fitted = some f ∧ f.target = targetName yname ∧ f.features = cols ∧ f.graph.distType f.target = some t ∧
      t.idx = cols.length ∧ (∀ a, k.est.targetType = some a → t.alias = a) ∧
      (k.est.targetType = none → k'.classes.length = 2 ∧ t.alias = .bin ∨ 2 < k'.classes.length ∧ t.alias = .cat) ∧
      k'.est.targetType = some t.alias := by
  obtain ⟨h2, hc, f, hf, hk⟩ := clfFit_ok hfit
  obtain ⟨sc, a, g, -, -, -, -, h5, h6, -⟩ := fits_graph horder (c := ⟨cols, x, h.series.length, yname⟩)
    (e := { k.est with targetType := some (clfType k.est.targetType (labelClasses y).length) })
    (h := { h with series := h.series ++ [y.map fun v => ((labelClasses y).idxOf v : ℚ)] }) hw hf
  obtain ⟨es, t, e1, e2, e3, -⟩ := fits_target_last horder (c := ⟨cols, x, h.series.length, yname⟩)
    (e := { k.est with targetType := some (clfType k.est.targetType (labelClasses y).length) })
    (h := { h with series := h.series ++ [y.map fun v => ((labelClasses y).idxOf v : ℚ)] }) hw hf (by rw [h6]; exact hkey)
  have hnt := fits_node_type horder (c := ⟨cols, x, h.series.length, yname⟩)
    (e := { k.est with targetType := some (clfType k.est.targetType (labelClasses y).length) })
    (h := { h with series := h.series ++ [y.map fun v => ((labelClasses y).idxOf v : ℚ)] }) hw hf (by rw [h6]; exact hns.noClash _)
    (t := t) (by rw [e1]; simp) e2
  have e3' : t.alias = clfType k.est.targetType (labelClasses y).length := Option.some.inj e3
  refine ⟨f, t, by rw [hk], h6, h5, hnt, e2, ?_, ?_, by rw [hk, e3']⟩
  · intro a ha
    rw [e3', ha]
    rfl
  · intro ha
    rw [e3', ha, hc]
    unfold clfType
    by_cases h3 : (labelClasses y).length > 2
    · exact Or.inr ⟨h3, by simp [h3]⟩
    · exact Or.inl ⟨by omega, by simp [h3]⟩

/-! ### Which columns are standardised -/

/-- Specification: the positions of the columns of continuous type, in the order of the types. -/
def ContPositions (cols : List Str) (schema : List (Str × Alias)) (idxs : List ℕ) : Prop :=
  idxs.map (fun i => cols[i]?) = (schema.filter fun p => p.2 = .cont).map fun p => some p.1

theorem contColumns_total (cols : List Str) (schema : List (Str × Alias)) :
    ((∃ p ∈ schema, p.2 = .cont ∧ p.1 ∉ cols) ∧ contColumns cols schema = .error .keyError) ∨
    ((∀ p ∈ schema, p.2 = .cont → p.1 ∈ cols) ∧ ∃ idxs, contColumns cols schema = .ok idxs ∧ ContPositions cols schema idxs) := by
  unfold contColumns
  induction schema with
  | nil => exact Or.inr ⟨by simp, [], rfl, rfl⟩
  | cons p l ih =>
    rw [List.mapM_cons]
    by_cases hp : p.2 = .cont
    · by_cases hm : p.1 ∈ cols
      · obtain ⟨i, hi⟩ := Notears.colIdx_mem hm
        have h1 : contColumn cols p = .ok [i] := by
          unfold contColumn
          rw [if_pos hp, hi]
        rcases ih with ⟨⟨q, hq, hq1, hq2⟩, h2⟩ | ⟨h3, idxs, h4, h5⟩
        · left
          refine ⟨⟨q, List.mem_cons_of_mem _ hq, hq1, hq2⟩, ?_⟩
          rw [h1]
          cases hl : l.mapM (contColumn cols) with
          | error err => rw [hl] at h2; exact h2
          | ok v => rw [hl] at h2; cases h2
        · right
          refine ⟨?_, i :: idxs, ?_, ?_⟩
          · intro q hq
            rcases List.mem_cons.1 hq with rfl | hq
            · exact fun _ => hm
            · exact h3 q hq
          · rw [h1]
            cases hl : l.mapM (contColumn cols) with
            | error err => rw [hl] at h4; cases h4
            | ok v =>
              rw [hl] at h4
              have : v.flatten = idxs := Except.ok.inj h4
              subst this
              rfl
          · unfold ContPositions at h5 ⊢
            rw [List.filter_cons_of_pos (by simpa using hp), List.map_cons, List.map_cons, h5, Notears.colIdx_some hi]
      · left
        refine ⟨⟨p, by simp, hp, hm⟩, ?_⟩
        have h1 : contColumn cols p = .error .keyError := by
          unfold contColumn
          rw [if_pos hp, Notears.colIdx_not_mem hm]
        rw [h1]
        rfl
    · have h1 : contColumn cols p = .ok [] := by
        unfold contColumn
        rw [if_neg hp]
      rcases ih with ⟨⟨q, hq, hq1, hq2⟩, h2⟩ | ⟨h3, idxs, h4, h5⟩
      · left
        refine ⟨⟨q, List.mem_cons_of_mem _ hq, hq1, hq2⟩, ?_⟩
        rw [h1]
        cases hl : l.mapM (contColumn cols) with
        | error err => rw [hl] at h2; exact h2
        | ok v => rw [hl] at h2; cases h2
      · right
        refine ⟨?_, idxs, ?_, ?_⟩
        · intro q hq hq'
          rcases List.mem_cons.1 hq with rfl | hq
          · exact absurd hq' hp
          · exact h3 q hq hq'
        · rw [h1]
          cases hl : l.mapM (contColumn cols) with
          | error err => rw [hl] at h4; cases h4
          | ok v =>
            rw [hl] at h4
            have : v.flatten = idxs := Except.ok.inj h4
            subst this
            rfl
        · unfold ContPositions at h5 ⊢
          rw [List.filter_cons_of_neg (by simpa using hp), h5]

/-! ### A `fit` that raises -/

section
variable {ext : Ext} {e e' : Est} {h : Heap} {c : Call} {err : Err}

/-- Means and standard deviations of the columns at the given positions. -/
def columnScales (std : List ℚ → ℚ) (X : List (List ℚ)) (idxs : List ℕ) : List (ℚ × ℚ) :=
  idxs.map fun i => scalerFit std (X.map fun r => r.getD i 0)

/-- **C96**: what a `fit` that raises does to the estimator. The arguments, the type of the target and the graph of an earlier fit stay.
Nothing changes if the data are unusable or a continuous column is missing. If there is no continuous column to standardise, the scaler is
replaced by one that is not fitted. If learning the graph raises, the names of the features and of the target, and the scalers, are those
of the data of the failed call. -/
theorem failed_fit (hfit : (baseFit ext e h c).2 = (e', some err)) :
    e'.params = e.params ∧ e'.targetType = e.targetType ∧ (e.fitted = none → e'.fitted = none) ∧
    ∀ f, e.fitted = some f → ∃ f', e'.fitted = some f' ∧ f'.graph = f.graph ∧
      ((h.tables.getD c.x [] = [] ∨ c.cols = [] ∨ (h.series.getD c.y []).length ≠ (h.tables.getD c.x []).length) ∧ f' = f ∨
       e.params.standardize = true ∧ (∃ p ∈ usedSchema e h c.cols, p.2 = .cont ∧ p.1 ∉ c.cols) ∧ f' = f ∨
       e.params.standardize = true ∧ (∀ p ∈ usedSchema e h c.cols, p.2 ≠ .cont) ∧ f'.ready = false ∨
       f'.features = c.cols ∧ f'.target = targetName c.yname ∧
        (e.params.standardize = false → f'.contIdx = f.contIdx ∧ f'.ssX = f.ssX ∧ f'.ssY = f.ssY ∧ f'.ready = f.ready) ∧
        (e.params.standardize = true → f'.ready = true ∧ ContPositions c.cols (usedSchema e h c.cols) f'.contIdx ∧
          f'.ssX = columnScales ext.std (h.tables.getD c.x []) f'.contIdx ∧
          (e.targetType = some .cont → f'.ssY = some (scalerFit ext.std (h.series.getD c.y []))) ∧
          (e.targetType ≠ some .cont → f'.ssY = f.ssY))) := by
  have hs := (baseFit_spec ext e h c).2
  rw [hfit] at hs
  cases hp : pureFit ext e.params e.targetType (e.params.schema.map fun r => h.schemas.getD r [])
      (e.params.tabuParents.map fun r => h.lists.getD r []) c.cols (h.tables.getD c.x []) (h.series.getD c.y []) c.yname with
  | ok f => rw [hp] at hs; simp at hs
  | error er =>
    rw [hp] at hs
    simp only [Prod.mk.injEq] at hs
    obtain ⟨rfl, -⟩ := hs
    refine ⟨rfl, rfl, fun h0 => by simp [Est.update, h0], ?_⟩
    intro f hf
    refine ⟨_, by rw [Est.update, hf]; rfl, ?_⟩
    have hus : usedSchema e h c.cols = schemaValue (e.params.schema.map fun r => h.schemas.getD r []) c.cols := rfl
    unfold pureStale
    rw [← hus]
    by_cases h0 : (h.tables.getD c.x []).length = 0 ∨ c.cols.length = 0 ∨ (h.series.getD c.y []).length ≠ (h.tables.getD c.x []).length
    · rw [if_pos h0]
      refine ⟨rfl, Or.inl ⟨?_, rfl⟩⟩
      rcases h0 with h0 | h0 | h0
      · exact Or.inl (List.length_eq_zero_iff.1 h0)
      · exact Or.inr (Or.inl (List.length_eq_zero_iff.1 h0))
      · exact Or.inr (Or.inr h0)
    rw [if_neg h0]
    unfold scaleValues
    cases hst : e.params.standardize with
    | false =>
      simp only [Bool.false_eq_true, if_false]
      exact ⟨rfl, Or.inr (Or.inr (Or.inr ⟨rfl, rfl, fun _ => ⟨rfl, rfl, rfl, rfl⟩, fun h1 => by simp at h1⟩))⟩
    | true =>
      simp only [if_true]
      rcases contColumns_total c.cols (usedSchema e h c.cols) with ⟨h1, h2⟩ | ⟨h1, idxs, h2, h3⟩
      · simp only [h2, afterScaling]
        exact ⟨trivial, Or.inr (Or.inl ⟨trivial, h1, trivial⟩)⟩
      · simp only [h2]
        by_cases hi : idxs = []
        · simp only [hi, if_true, afterScaling, h2]
          refine ⟨trivial, Or.inr (Or.inr (Or.inl ⟨trivial, ?_, trivial⟩))⟩
          unfold ContPositions at h3
          rw [hi, List.map_nil, eq_comm, List.map_eq_nil_iff, List.filter_eq_nil_iff] at h3
          intro p hp hc
          exact h3 p hp (by simpa using hc)
        · simp only [hi, if_false]
          by_cases ht : e.targetType = some .cont
          · simp only [ht, if_true, beforeLearning]
            exact ⟨trivial, Or.inr (Or.inr (Or.inr ⟨trivial, trivial, fun h1 => by simp at h1, fun _ =>
              ⟨trivial, h3, rfl, fun _ => trivial, fun h1 => absurd rfl h1⟩⟩))⟩
          · simp only [ht, if_false, beforeLearning, if_true]
            exact ⟨trivial, Or.inr (Or.inr (Or.inr ⟨trivial, trivial, fun h1 => by simp at h1, fun _ =>
              ⟨trivial, h3, rfl, fun h1 => h1.elim, fun _ => trivial⟩⟩))⟩

/-- **C96**, the part that holds: without standardisation a `fit` that raises for columns and a target with the names of the last
successful `fit` leaves the estimator as it was. -/
theorem failed_fit_plain_partial {f : Fit} (hfit : (baseFit ext e h c).2 = (e', some err)) (hst : e.params.standardize = false)
    (hf : e.fitted = some f) (hcols : f.features = c.cols) (htarget : f.target = targetName c.yname) : e' = e := by
  obtain ⟨h1, h2, -, h4⟩ := failed_fit hfit
  obtain ⟨f', k1, k2, k3⟩ := h4 f hf
  have hff : f' = f := by
    rcases k3 with ⟨-, k⟩ | ⟨-, -, k⟩ | ⟨k, -⟩ | ⟨a1, a2, a3, -⟩
    · exact k
    · exact k
    · rw [hst] at k; cases k
    · obtain ⟨b1, b2, b3, b4⟩ := a3 hst
      cases f
      cases f'
      simp_all
  obtain ⟨p, t, fi⟩ := e
  obtain ⟨p', t', fi'⟩ := e'
  simp only at h1 h2 k1 hf
  subst h1 h2
  rw [k1, hf, hff]

/-- **C96**, what happens instead with standardisation: after a `fit` of a continuous target in which learning raised, the old network is
used with the means and standard deviations of the new data. -/
theorem failed_fit_predict {f : Fit} (hfit : (baseFit ext e h c).2 = (e', some err)) (hst : e.params.standardize = true)
    (htt : e.targetType = some .cont) (hf : e.fitted = some f) (hcols : f.features.length = c.cols.length)
    (htarget : f.target = targetName c.yname) (hX : h.tables.getD c.x [] ≠ []) (hc : c.cols ≠ [])
    (hy : (h.series.getD c.y []).length = (h.tables.getD c.x []).length)
    (hknown : ∀ p ∈ usedSchema e h c.cols, p.2 = .cont → p.1 ∈ c.cols) (hsome : ∃ p ∈ usedSchema e h c.cols, p.2 = .cont) :
    ∃ idxs, ContPositions c.cols (usedSchema e h c.cols) idxs ∧ ∀ (isInt : Bool) (X : List (List ℚ)),
      basePredict e' isInt X =
        (basePredict { e with params := { e.params with standardize := false } } isInt
          (X.map (scaleRow (if isInt then truncate else id) idxs (columnScales ext.std (h.tables.getD c.x []) idxs)))).map
        fun ys => ys.map fun v => v.map fun a =>
          a * ((scalerFit ext.std (h.series.getD c.y [])).2 : ℝ) + ((scalerFit ext.std (h.series.getD c.y [])).1 : ℝ) := by
  obtain ⟨h1, h2, -, h4⟩ := failed_fit hfit
  obtain ⟨f', k1, k2, k3⟩ := h4 f hf
  rcases k3 with ⟨k, -⟩ | ⟨-, ⟨p, hp, hp1, hp2⟩, -⟩ | ⟨-, k, -⟩ | ⟨a1, a2, -, a4⟩
  · rcases k with k | k | k
    · exact absurd k hX
    · exact absurd k hc
    · exact absurd hy k
  · exact absurd (hknown p hp hp1) hp2
  · obtain ⟨p, hp, hp1⟩ := hsome
    exact absurd hp1 (k p hp)
  · obtain ⟨b1, b2, b3, b4, -⟩ := a4 hst
    refine ⟨f'.contIdx, b2, fun isInt X => ?_⟩
    have h5 := b4 htt
    unfold basePredict
    rw [k1, hf]
    simp only [h1, hst, b1, Bool.not_true, Bool.and_false, Bool.false_and, Bool.false_eq_true, if_false, if_true, k2, a1, a2, h5, b3]
    rw [htarget, hcols]
    generalize reconstructData f.graph.arch f.graph.encs f.graph.params _ = R
    cases R with
    | error er => rfl
    | ok out =>
      simp only
      cases f.graph.distType (targetName c.yname) with
      | none => rfl
      | some t =>
        simp only
        cases out.mapM (readColumns (encFitted t)) with
        | error er => rfl
        | ok ys => rfl

/-- Predictions with standardisation in terms of the network alone. -/
theorem basePredict_scaled {f : Fit} (hst : e.params.standardize = true) (hf : e.fitted = some f) (hr : f.ready = true) {s : ℚ × ℚ}
    (hs : f.ssY = some s) (isInt : Bool) (X : List (List ℚ)) :
    basePredict e isInt X = (basePredict { e with params := { e.params with standardize := false } } isInt
      (X.map (scaleRow (if isInt then truncate else id) f.contIdx f.ssX))).map
        fun ys => ys.map fun v => v.map fun a => a * (s.2 : ℝ) + (s.1 : ℝ) := by
  unfold basePredict
  rw [hf]
  simp only [hst, hr, Bool.not_true, Bool.and_false, Bool.false_and, Bool.false_eq_true, if_false, if_true, hs]
  generalize reconstructData f.graph.arch f.graph.encs f.graph.params _ = R
  cases R with
  | error er => rfl
  | ok out =>
    simp only
    cases f.graph.distType f.target with
    | none => rfl
    | some t =>
      simp only
      cases out.mapM (readColumns (encFitted t)) with
      | error er => rfl
      | ok ys => rfl

end

/-- **C96** for classifiers: a `fit` that raises replaces the classes all the same, so every label predicted afterwards, by whatever
network there was, is one of the labels of the failed call. -/
theorem failed_clf_fit {L : Type} [LinearOrder L] {ext : Ext} {k k' : Clf L} {h h' : Heap} {cols : List Str} {x : ℕ} {yname : Option Str}
    {y : List L} {err : Err} (hfit : clfFit ext k h cols x yname y = (h', k', some err)) :
    (∀ f, k.est.fitted = some f → ∃ f', k'.est.fitted = some f' ∧ f'.graph = f.graph) ∧
    (∀ l, l ∈ k'.classes ↔ l ∈ y) ∧
    ∀ (isInt : Bool) (X : List (List ℚ)) (ls : List L), clfPredict k' isInt X = .ok ls → ∀ l ∈ ls, l ∈ y := by
  have hcl : k'.classes = labelClasses y := by
    unfold clfFit at hfit
    simp only at hfit
    split_ifs at hfit <;> simp only [Prod.mk.injEq] at hfit <;> rw [← hfit.2.1]
  have hmem : ∀ l, l ∈ k'.classes ↔ l ∈ y := by
    intro l
    rw [hcl]
    unfold labelClasses
    rw [List.mem_dedup, List.mem_insertionSort]
  refine ⟨?_, hmem, ?_⟩
  · intro f hf
    unfold clfFit at hfit
    simp only at hfit
    split_ifs at hfit
    · cases hfit; exact ⟨f, hf, rfl⟩
    · cases hfit; exact ⟨f, hf, rfl⟩
    · cases hr : baseFit ext { k.est with targetType := some (clfType k.est.targetType (labelClasses y).length) }
        { h with series := h.series ++ [y.map fun v => ((labelClasses y).idxOf v : ℚ)] }
        ⟨cols, x, (h.series ++ [y.map fun v => ((labelClasses y).idxOf v : ℚ)]).length - 1, yname⟩ with
      | mk a b =>
        rw [hr] at hfit
        simp only [Prod.mk.injEq] at hfit
        obtain ⟨-, hk, he⟩ := hfit
        have hb := (congrArg Prod.snd hr).trans (Prod.ext rfl he : b = (b.1, some err))
        obtain ⟨f', h1, h2, -⟩ := (failed_fit hb).2.2.2 f hf
        exact ⟨f', by rw [← hk]; exact h1, h2⟩
  · intro isInt X ls hls l hl
    unfold clfPredict at hls
    cases hps : predictProba k' isInt X with
    | error er => rw [hps] at hls; cases hls
    | ok ps =>
      rw [hps] at hls
      obtain ⟨p, hp, hpl⟩ := mapM_mem hls hl
      unfold classOf at hpl
      cases hh : k'.classes[classIndex k'.classes.length p]? with
      | none => rw [hh] at hpl; cases hpl
      | some c =>
        rw [hh] at hpl
        cases hpl
        exact (hmem _).1 (List.mem_of_getElem? hh)

end Verif.Sklearn
