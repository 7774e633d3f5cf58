import Verif.Sklearn.Model

/-!
# Fitting as a function of values; the caller's objects do not change (C65)
-/

namespace Verif.Sklearn

open Verif.Str Verif.Pytorch
open Verif.Notears (Tabu Minimizer colIdx)

/-- Specification: every object of `h` has the same value in `h'`. -/
def Heap.Keeps (h h' : Heap) : Prop :=
  h.lists <+: h'.lists ∧ h.schemas <+: h'.schemas ∧ h.tables <+: h'.tables ∧ h.series <+: h'.series

theorem Heap.Keeps.refl (h : Heap) : h.Keeps h := ⟨List.prefix_rfl, List.prefix_rfl, List.prefix_rfl, List.prefix_rfl⟩

theorem Heap.Keeps.trans {a b c : Heap} (h : a.Keeps b) (k : b.Keeps c) : a.Keeps c :=
  ⟨h.1.trans k.1, h.2.1.trans k.2.1, h.2.2.1.trans k.2.2.1, h.2.2.2.trans k.2.2.2⟩

theorem prefix_getD {α : Type} {l l' : List α} (h : l <+: l') {r : ℕ} (hr : r < l.length) (d : α) : l'.getD r d = l.getD r d := by
  obtain ⟨t, rfl⟩ := h
  rw [List.getD_eq_getElem?_getD, List.getD_eq_getElem?_getD, List.getElem?_append_left hr]

theorem getD_append_last {α : Type} (l : List α) (a d : α) : (l ++ [a]).getD l.length d = a := by
  simp [List.getD_eq_getElem?_getD]

theorem set_append_last {α : Type} (l : List α) (a b : α) : (l ++ [a]).set l.length b = l ++ [b] := by
  rw [List.set_append_right _ _ le_rfl]; simp

/-! ### Fitting with values instead of references -/

/-- The types used for the features. -/
def schemaValue (schema : Option (List (Str × Alias))) (cols : List Str) : List (Str × Alias) :=
  match schema with
  | none => cols.map fun c => (c, .cont)
  | some [] => cols.map fun c => (c, .cont)
  | some l => l

/-- The standardised data and the scalers. -/
structure ScaledValues where
  X : List (List ℚ)
  y : List ℚ
  contIdx : List ℕ
  ssX : List (ℚ × ℚ)
  ssY : Option (ℚ × ℚ)

/-- The standardisation of values. -/
def scaleValues (std : List ℚ → ℚ) (on : Bool) (targetType : Option Alias) (schema : List (Str × Alias)) (cols : List Str)
    (X : List (List ℚ)) (y : List ℚ) : Except Err ScaledValues :=
  if on then
    match contColumns cols schema with
    | .error e => .error e
    | .ok idxs =>
      if idxs = [] then .error .valueError
      else
        let ss := idxs.map fun i => scalerFit std (X.map fun r => r.getD i 0)
        if targetType = some .cont then
          .ok ⟨X.map (scaleRow id idxs ss), y.map (scaleValue (scalerFit std y)), idxs, ss, some (scalerFit std y)⟩
        else .ok ⟨X.map (scaleRow id idxs ss), y, idxs, ss, none⟩
  else .ok ⟨X, y, [], [], none⟩

/-- The excluded parents used. -/
def parentsValue (parents : Option (List Str)) (dependent : Bool) (target : Str) : Option (List Str) :=
  match parents with
  | none => if dependent then some [target] else none
  | some l => if dependent ∧ target ∉ l then some (l ++ [target]) else some l

/-- The table given to `from_pandas`. -/
def joined (cols : List Str) (target : Str) (X : List (List ℚ)) (y : List ℚ) : Table :=
  ⟨cols ++ [target], (cols ++ [target]).map fun _ => true, List.zipWith (fun r v => r ++ [v]) X y⟩

/-- The other arguments given to `from_pandas`. -/
noncomputable def learnArgs (p : Params) (schema : List (Str × Alias)) (parents : Option (List Str)) : Args Str :=
  { schema := some schema, lasso := p.alpha, ridge := p.beta, useBias := p.fitIntercept, hidden := p.hidden,
    wThreshold := some p.threshold, maxIter := p.maxIter, clamp := p.clamp,
    tabu := ⟨p.tabuEdges, parents, p.tabuChildren⟩ }

/-- `baseFit` as a function of the values of the arguments. -/
noncomputable def pureFit (ext : Ext) (p : Params) (targetType : Option Alias) (schema : Option (List (Str × Alias)))
    (parents : Option (List Str)) (cols : List Str) (X : List (List ℚ)) (y : List ℚ) (yname : Option Str) : Except Err Fit :=
  if X.length = 0 ∨ cols.length = 0 ∨ y.length ≠ X.length then .error .valueError
  else
    match scaleValues ext.std p.standardize targetType (schemaValue schema cols) cols X y with
    | .error e => .error e
    | .ok sc =>
      match targetType with
      | none => .error .keyError
      | some a =>
        match fromPandas ext.minimize ext.init ext.fuel ext.order (joined cols (targetName yname) sc.X sc.y)
            (learnArgs p (dictSet (schemaValue schema cols) (targetName yname) a)
              (parentsValue parents p.dependentTarget (targetName yname))) with
        | .error e => .error e
        | .ok g =>
          .ok ⟨sc.contIdx, sc.ssX, sc.ssY, cols, targetName yname,
            if p.enforceDag then { g with edges := tillDag g.edges.length g.edges } else g, true⟩

/-- What a `fit` that raises does to the attributes, as a function of the values of the arguments. -/
def pureStale (std : List ℚ → ℚ) (p : Params) (targetType : Option Alias) (schema : Option (List (Str × Alias)))
    (cols : List Str) (X : List (List ℚ)) (y : List ℚ) (yname : Option Str) (f : Fit) : Fit :=
  if X.length = 0 ∨ cols.length = 0 ∨ y.length ≠ X.length then f
  else
    match scaleValues std p.standardize targetType (schemaValue schema cols) cols X y with
    | .error _ => afterScaling cols (schemaValue schema cols) f
    | .ok sc => beforeLearning p.standardize sc.contIdx sc.ssX sc.ssY cols (targetName yname) f

theorem copySchema_spec (h : Heap) (r : Option ℕ) (cols : List Str) :
    ∃ v, (copySchema h r cols).1 = { h with schemas := h.schemas ++ [v] } ∧ (copySchema h r cols).2 = h.schemas.length ∧
      v = schemaValue (r.map fun r => h.schemas.getD r []) cols := by
  refine ⟨_, rfl, rfl, ?_⟩
  cases r with
  | none => rfl
  | some r =>
    simp only [Option.map_some, schemaValue]
    cases h.schemas.getD r [] <;> rfl

theorem standardizeStep_spec (std : List ℚ → ℚ) (on : Bool) (tt : Option Alias) (h : Heap) (schema : List (Str × Alias))
    (cols : List Str) (x y : ℕ) :
    match scaleValues std on tt schema cols (h.tables.getD x []) (h.series.getD y []) with
    | .error e => standardizeStep std on tt h schema cols x y = .error e
    | .ok v => ∃ sc, standardizeStep std on tt h schema cols x y = .ok sc ∧ h.Keeps sc.heap ∧ sc.heap.lists = h.lists ∧
        sc.heap.schemas = h.schemas ∧ sc.heap.tables.getD sc.x [] = v.X ∧ sc.heap.series.getD sc.y [] = v.y ∧ sc.contIdx = v.contIdx ∧
        sc.ssX = v.ssX ∧ sc.ssY = v.ssY := by
  unfold scaleValues standardizeStep
  cases on
  · simp only [Bool.false_eq_true, if_false]
    exact ⟨_, rfl, Heap.Keeps.refl _, rfl, rfl, rfl, rfl, rfl, rfl, rfl⟩
  · simp only [if_true]
    cases contColumns cols schema with
    | error e => rfl
    | ok idxs =>
      simp only
      by_cases h0 : idxs = []
      · simp only [h0, if_true]
      · simp only [h0, if_false]
        by_cases ht : tt = some .cont
        · simp only [ht, if_true]
          refine ⟨_, rfl, ⟨List.prefix_rfl, List.prefix_rfl, ?_, ?_⟩, rfl, rfl, ?_, ?_, rfl, rfl, rfl⟩
          · rw [set_append_last]; exact List.prefix_append _ _
          · simp only; rw [set_append_last]; exact List.prefix_append _ _
          · simp only; rw [set_append_last, getD_append_last]
          · simp only; rw [set_append_last, getD_append_last]
        · simp only [ht, if_false]
          refine ⟨_, rfl, ⟨List.prefix_rfl, List.prefix_rfl, ?_, List.prefix_rfl⟩, rfl, rfl, ?_, rfl, rfl, rfl, rfl⟩
          · rw [set_append_last]; exact List.prefix_append _ _
          · simp only; rw [set_append_last, getD_append_last]

theorem tabuParentsFor_spec (h : Heap) (r : Option ℕ) (dep : Bool) (target : Str) :
    h.Keeps (tabuParentsFor h r dep target).1 ∧ (tabuParentsFor h r dep target).1.schemas = h.schemas ∧
      (tabuParentsFor h r dep target).1.tables = h.tables ∧ (tabuParentsFor h r dep target).1.series = h.series ∧
      (tabuParentsFor h r dep target).2.map (fun q => (tabuParentsFor h r dep target).1.lists.getD q []) =
        parentsValue (r.map fun r => h.lists.getD r []) dep target := by
  unfold tabuParentsFor parentsValue
  cases r with
  | none =>
    cases dep
    · simp only [Bool.false_eq_true, if_false]
      exact ⟨Heap.Keeps.refl _, by simp⟩
    · simp only [if_true]
      refine ⟨⟨List.prefix_append _ _, List.prefix_rfl, List.prefix_rfl, List.prefix_rfl⟩, trivial, trivial, trivial, ?_⟩
      simp [List.getD_eq_getElem?_getD]
  | some r =>
    simp only [Option.map_some]
    split_ifs with hc
    · refine ⟨⟨?_, List.prefix_rfl, List.prefix_rfl, List.prefix_rfl⟩, rfl, rfl, rfl, ?_⟩
      · simp only; rw [set_append_last]; exact List.prefix_append _ _
      · simp only [Option.map_some]; rw [set_append_last, getD_append_last]
    · refine ⟨⟨List.prefix_append _ _, List.prefix_rfl, List.prefix_rfl, List.prefix_rfl⟩, rfl, rfl, rfl, ?_⟩
      simp only [Option.map_some]; rw [getD_append_last]

/-- `fit` is a function of the values of its arguments and changes no object of the caller. -/
theorem baseFit_spec (ext : Ext) (e : Est) (h : Heap) (c : Call) :
    h.Keeps (baseFit ext e h c).1 ∧
    (baseFit ext e h c).2 =
      match pureFit ext e.params e.targetType (e.params.schema.map fun r => h.schemas.getD r [])
          (e.params.tabuParents.map fun r => h.lists.getD r []) c.cols (h.tables.getD c.x []) (h.series.getD c.y []) c.yname with
      | .error err => (e.update (pureStale ext.std e.params e.targetType (e.params.schema.map fun r => h.schemas.getD r []) c.cols
          (h.tables.getD c.x []) (h.series.getD c.y []) c.yname), some err)
      | .ok f => ({ e with fitted := some f }, none) := by
  unfold baseFit pureFit pureStale
  by_cases h0 : (h.tables.getD c.x []).length = 0 ∨ c.cols.length = 0 ∨ (h.series.getD c.y []).length ≠ (h.tables.getD c.x []).length
  · simp only [h0, if_true]
    refine ⟨Heap.Keeps.refl _, ?_⟩
    obtain ⟨p, t, f⟩ := e
    cases f <;> rfl
  · simp only [h0, if_false]
    obtain ⟨v, hv1, hv2, hv3⟩ := copySchema_spec h e.params.schema c.cols
    rw [← hv3]
    generalize hcs : copySchema h e.params.schema c.cols = cs at hv1 hv2 ⊢
    obtain ⟨h1, s⟩ := cs
    simp only at hv1 hv2 ⊢
    subst hv1 hv2
    have k1 : h.Keeps { h with schemas := h.schemas ++ [v] } :=
      ⟨List.prefix_rfl, List.prefix_append _ _, List.prefix_rfl, List.prefix_rfl⟩
    have hs := standardizeStep_spec ext.std e.params.standardize e.targetType { h with schemas := h.schemas ++ [v] } v c.cols c.x c.y
    simp only [getD_append_last] at hs ⊢
    cases hsv : scaleValues ext.std e.params.standardize e.targetType v c.cols (h.tables.getD c.x []) (h.series.getD c.y []) with
    | error er =>
      rw [hsv] at hs
      simp only at hs
      simp only [hs]
      exact ⟨k1, trivial⟩
    | ok sv =>
      rw [hsv] at hs
      obtain ⟨sc, e1, k2, e2, e3, e4, e5, e6, e7, e8⟩ := hs
      simp only [e1]
      cases htt : e.targetType with
      | none => exact ⟨k1.trans k2, by simp only [e6, e7, e8]⟩
      | some a =>
        simp only [e3]
        simp only [getD_append_last, set_append_last]
        have hp := tabuParentsFor_spec { sc.heap with schemas := h.schemas ++ [dictSet v (targetName c.yname) a] }
          e.params.tabuParents e.params.dependentTarget (targetName c.yname)
        generalize tabuParentsFor { sc.heap with schemas := h.schemas ++ [dictSet v (targetName c.yname) a] }
          e.params.tabuParents e.params.dependentTarget (targetName c.yname) = tp at hp ⊢
        obtain ⟨h3, q⟩ := tp
        obtain ⟨k3, p1, p2, p3, p4⟩ := hp
        simp only at p1 p2 p3 p4 ⊢
        have k4 : h.Keeps h3 := by
          refine Heap.Keeps.trans ?_ k3
          exact ⟨k2.1, List.prefix_append _ _, k2.2.2.1, k2.2.2.2⟩
        have hlg : learnGraph ext e.params h3 (h3.schemas.getD h.schemas.length []) q c.cols sc.x sc.y (targetName c.yname) =
            fromPandas ext.minimize ext.init ext.fuel ext.order (joined c.cols (targetName c.yname) sv.X sv.y)
              (learnArgs e.params (dictSet v (targetName c.yname) a)
                (parentsValue (e.params.tabuParents.map fun r => h.lists.getD r []) e.params.dependentTarget (targetName c.yname))) := by
          unfold learnGraph joined learnArgs
          rw [p1, p2, p3, e4, e5, p4, getD_append_last, e2]
        rw [hlg]
        cases fromPandas ext.minimize ext.init ext.fuel ext.order (joined c.cols (targetName c.yname) sv.X sv.y)
              (learnArgs e.params (dictSet v (targetName c.yname) a)
                (parentsValue (e.params.tabuParents.map fun r => h.lists.getD r []) e.params.dependentTarget (targetName c.yname))) with
        | error er => exact ⟨k4, by simp only [e6, e7, e8]⟩
        | ok g => exact ⟨k4, by simp only [e6, e7, e8, Prod.mk.injEq, Est.mk.injEq, and_true, true_and, Option.some.injEq]⟩

end Verif.Sklearn
