import Verif.Sklearn.Units
import Verif.Sklearn.Examples

/-!
# Concrete cases for C157
-/

namespace Verif.Sklearn

open Verif.Str Verif.Pytorch
open Verif.Notears (RespectsBounds Permitted)

/-- The mean distance from the mean. -/
def meanDeviation (l : List ℚ) : ℚ := (l.map fun v => |v - l.sum / l.length|).sum / l.length

/-- There are measures of spread with rational values; the standard deviation is another one, with real values. -/
theorem meanDeviation_isSpread : IsSpread meanDeviation := by
  refine ⟨fun l => ?_, fun l a b ha => ?_⟩
  · unfold meanDeviation
    refine div_nonneg (List.sum_nonneg ?_) (by positivity)
    intro v hv
    obtain ⟨w, -, rfl⟩ := List.mem_map.1 hv
    exact abs_nonneg _
  · by_cases hl : l = []
    · subst hl; simp [meanDeviation]
    have hn : (l.length : ℚ) ≠ 0 := by
      rw [Nat.cast_ne_zero]
      exact fun h => hl (List.length_eq_zero_iff.1 h)
    unfold meanDeviation
    rw [List.length_map, sum_units, List.map_map]
    have : ((fun v => |v - (a * l.sum + l.length * b) / l.length|) ∘ fun v => a * v + b) = fun v => a * |v - l.sum / l.length| := by
      funext v
      simp only [Function.comp]
      rw [← abs_of_pos ha, ← abs_mul, abs_of_pos ha]
      congr 1
      field_simp
      ring
    rw [this, List.sum_map_mul_left, mul_div_assoc]

/-- The largest value is no measure of spread. -/
example : ¬ IsSpread fun l => l.foldl max 0 := by
  intro h
  have := h.units [1] 1 1 one_pos
  revert this
  decide +kernel

/-- A table and a target, and the same in other units: the feature `a` in degrees Fahrenheit instead of Celsius. -/
def exHeapUnits : Heap :=
  ⟨[[['b']]], [[(['b'], .poiss), (['a'], .cont)]],
    [[[5, 0], [10, 1], [15, 5], [20, 2]], [[41, 0], [50, 1], [59, 5], [68, 2]]], [[1, 3, 2, 6], [1000, 3000, 2000, 6000]]⟩

/-- A regressor that standardises. -/
noncomputable def exRegStd : Est := ⟨{ schema := some 0, tabuParents := some 0, standardize := true }, some .cont, none⟩

/-- The first column only is continuous. -/
theorem exUnits_cont (i : ℕ) : ContinuousAt [['a'], ['b']] [(['b'], .poiss), (['a'], .cont)] i ↔ i = 0 := by
  change (∃ c, [['a'], ['b']][i]? = some c ∧ (c, Alias.cont) ∈ [((['b'], .poiss) : Str × Alias), (['a'], .cont)]) ↔ i = 0
  constructor
  · rintro ⟨c, h1, h2⟩
    have hi2 : i < 2 := (List.getElem?_eq_some_iff.1 h1).1
    interval_cases i
    · rfl
    · cases h1
      exact absurd h2 (by decide)
  · rintro rfl
    exact ⟨['a'], rfl, by decide⟩

/-- The tables differ in the units of the first column. -/
theorem exUnits_rows : List.Forall₂ (InUnits (ContinuousAt [['a'], ['b']] [(['b'], .poiss), (['a'], .cont)]) (fun _ => 9 / 5) (fun _ => 32))
    (exHeapUnits.tables.getD 0 []) (exHeapUnits.tables.getD 1 []) := by
  have hrow : ∀ u v k : ℚ, v = 9 / 5 * u + 32 → InUnits (ContinuousAt [['a'], ['b']] [(['b'], .poiss), (['a'], .cont)])
      (fun _ => 9 / 5) (fun _ => 32) [u, k] [v, k] := by
    intro u v k huv
    refine ⟨rfl, ?_, ?_⟩
    · intro i _ hi
      rw [exUnits_cont] at hi
      subst hi
      exact huv
    · intro i hi hc
      rw [exUnits_cont] at hc
      have : i = 1 := by
        simp only [List.length_cons, List.length_nil] at hi
        omega
      subst this
      rfl
  change List.Forall₂ _ [[5, 0], [10, 1], [15, 5], [20, 2]] [[41, 0], [50, 1], [59, 5], [68, 2]]
  exact .cons (hrow _ _ _ (by norm_num)) (.cons (hrow _ _ _ (by norm_num)) (.cons (hrow _ _ _ (by norm_num))
    (.cons (hrow _ _ _ (by norm_num)) .nil)))

/-- The hypotheses of `reg_units` and `fits_standardized` are met, and fitting succeeds with an edge. -/
theorem reg_units_example : ∃ (ext : Ext) (f : Fit) (a b : ℕ → ℚ), IsSpread ext.std ∧ RespectsBounds ext.minimize ∧ (∀ es, (ext.order es).Perm es) ∧
    exCall.WF exRegStd exHeapUnits ∧ Fits ext exRegStd exHeapUnits exCall f ∧
    (∃ d ∈ f.graph.edges, d.src = ['a'] ∧ d.dst = ['y']) ∧
    (∀ i, ContinuousAt exCall.cols (usedSchema exRegStd exHeapUnits exCall.cols) i ↔ i = 0) ∧ a 0 = 9 / 5 ∧ b 0 = 32 ∧
    List.Forall₂ (InUnits (ContinuousAt exCall.cols (usedSchema exRegStd exHeapUnits exCall.cols)) a b) (exHeapUnits.tables.getD exCall.x [])
      (exHeapUnits.tables.getD 1 []) ∧
    exHeapUnits.series.getD 1 [] = (exHeapUnits.series.getD exCall.y []).map (fun v => 1000 * v + 0) ∧
    ext.std (column (exHeapUnits.tables.getD exCall.x []) 0) ≠ 0 ∧ ext.std (exHeapUnits.series.getD exCall.y []) ≠ 0 := by
  obtain ⟨sc, hsc, hscX, hscy⟩ : ∃ sc, scaleValues meanDeviation true (some .cont) [(['b'], .poiss), (['a'], .cont)] [['a'], ['b']]
      [[5, 0], [10, 1], [15, 5], [20, 2]] [1, 3, 2, 6] = .ok sc ∧ sc.X = [[-3 / 2, 0], [-1 / 2, 1], [1 / 2, 5], [3 / 2, 2]] ∧
      sc.y = [-4 / 3, 0, -2 / 3, 2] := by
    have h : (match scaleValues meanDeviation true (some .cont) [(['b'], .poiss), (['a'], .cont)] [['a'], ['b']]
        [[5, 0], [10, 1], [15, 5], [20, 2]] [1, 3, 2, 6] with
        | .ok sc => decide (sc.X = [[-3 / 2, 0], [-1 / 2, 1], [1 / 2, 5], [3 / 2, 2]] ∧ sc.y = [-4 / 3, 0, -2 / 3, 2])
        | .error _ => false) = true := by decide +kernel
    cases hp : scaleValues meanDeviation true (some .cont) [(['b'], .poiss), (['a'], .cont)] [['a'], ['b']]
        [[5, 0], [10, 1], [15, 5], [20, 2]] [1, 3, 2, 6] with
    | ok p => rw [hp] at h; exact ⟨p, rfl, of_decide_eq_true h⟩
    | error e => rw [hp] at h; simp at h
  set X := joined [['a'], ['b']] ['y'] [[-3 / 2, 0], [-1 / 2, 1], [1 / 2, 5], [3 / 2, 2]] [-4 / 3, 0, -2 / 3, 2] with hX
  set x := learnArgs exRegStd.params [(['b'], .poiss), (['a'], .cont), (['y'], .cont)] (some [['b'], ['y']]) with hx
  have hnd : X.cols.Nodup := by decide
  have hwf : X.values.WF := by
    intro r hr
    have hr' : r ∈ ([[-3 / 2, 0, -4 / 3], [-1 / 2, 1, 0], [1 / 2, 5, -2 / 3], [3 / 2, 2, 2]] : List (List ℚ)) := hr
    simp only [List.mem_cons, List.not_mem_nil, or_false] at hr'
    rcases hr' with rfl | rfl | rfl | rfl <;> rfl
  have hns : NoSuffix (exCall.cols ++ [targetName exCall.yname]) := noSuffix_of_letters (by decide)
  obtain ⟨p, hp, hcols, henc, hpar, hted, hch⟩ : ∃ p, prepareChecked X.values (some [(1, .poiss), (0, .cont), (2, .cont)]) ⟨none, some [1, 2], none⟩ = .ok p ∧
      p.data.cols = 3 ∧ p.encs = [.poiss 1, .cont 0, .cont 2] ∧ p.tabu.parents = some [1, 2] ∧ p.tabu.edges = none ∧ p.tabu.children = none := by
    refine ⟨_, rfl, ?_, ?_, ?_, ?_, ?_⟩ <;> rfl
  obtain ⟨w, g, hg, hge, hgd⟩ := fromPandas_single (X := X) (x := x) (order := exVisit) (i := 0) (j := 2)
    (fun es => List.reverse_perm es) hnd hwf (by intro l hl; cases hl; decide) (by intro l hl; cases hl; decide) (by decide)
    ⟨(by intro l hl; cases hl), (by intro l hl; cases hl; decide), (by intro l hl; cases hl)⟩ (by rfl) (by rfl) hp rfl
    (by rw [henc]; rfl) (show 0 < 100 by decide) (by decide) (by decide) (by rw [hcols]; decide) (by rw [hcols]; decide)
    ⟨by decide, (by intro l hl; rw [hted] at hl; cases hl), (by intro l hl; rw [hpar] at hl; cases hl; decide),
      (by intro l hl; rw [hch] at hl; cases hl)⟩
    (by rw [henc]; decide) (by intro t ht; cases ht; norm_num [exRegStd]) (fun _ => 0) 16
  refine ⟨⟨goTo w, fun _ => 0, 17, exVisit, meanDeviation⟩, ⟨sc.contIdx, sc.ssX, sc.ssY, exCall.cols, ['y'], g, true⟩, fun _ => 9 / 5, fun _ => 32,
    meanDeviation_isSpread, goTo_respects _, fun es => List.reverse_perm es, ?_, ?_, hgd (hns.noClash _), exUnits_cont, rfl, rfl, exUnits_rows,
    by decide +kernel, show meanDeviation (column (exHeapUnits.tables.getD exCall.x []) 0) ≠ 0 by decide +kernel,
    show meanDeviation (exHeapUnits.series.getD exCall.y []) ≠ 0 by decide +kernel⟩
  · refine ⟨by decide, by decide, by decide, ?_⟩
    intro l hl
    cases hl
    decide
  · rw [fits_iff]
    unfold pureFit
    rw [if_neg (by decide)]
    have hsc' : scaleValues meanDeviation exRegStd.params.standardize exRegStd.targetType
        (schemaValue (exRegStd.params.schema.map fun r => exHeapUnits.schemas.getD r []) exCall.cols) exCall.cols
        (exHeapUnits.tables.getD exCall.x []) (exHeapUnits.series.getD exCall.y []) = .ok sc := hsc
    simp only [hsc']
    rw [hscX, hscy]
    change (match fromPandas (goTo w) (fun _ => 0) 17 exVisit X x with
      | .error e => (.error e : Except Err Fit)
      | .ok g => .ok _) = _
    rw [hg]
    rfl

/-- A classifier that standardises. -/
noncomputable def exClfStd : Clf ℕ := ⟨⟨{ schema := some 0, standardize := true }, none, none⟩, []⟩

/-- The hypotheses of `clf_units` are met, and fitting succeeds for both tables. -/
theorem clf_units_example : ∃ (ext : Ext), IsSpread ext.std ∧ RespectsBounds ext.minimize ∧ (∀ es, (ext.order es).Perm es) ∧
    WellFormed [['a'], ['b']] none (exHeapUnits.tables.getD 0 []) (exClfStd.est.params.schema.map fun r => exHeapUnits.schemas.getD r []) ∧
    usedSchema exClfStd.est exHeapUnits [['a'], ['b']] = [(['b'], .poiss), (['a'], .cont)] ∧
    (∀ i, ContinuousAt [['a'], ['b']] [(['b'], .poiss), (['a'], .cont)] i → ext.std (column (exHeapUnits.tables.getD 0 []) i) ≠ 0) ∧
    (clfFit ext exClfStd exHeapUnits [['a'], ['b']] 0 none [5, 9, 7, 5]).2.2 = none ∧
    (clfFit ext exClfStd exHeapUnits [['a'], ['b']] 1 none [5, 9, 7, 5]).2.2 = none := by
  obtain ⟨sc, hsc, hscX, hscy⟩ : ∃ sc, scaleValues meanDeviation true (some .cat) [(['b'], .poiss), (['a'], .cont)] [['a'], ['b']]
      [[5, 0], [10, 1], [15, 5], [20, 2]] [0, 2, 1, 0] = .ok sc ∧ sc.X = [[-3 / 2, 0], [-1 / 2, 1], [1 / 2, 5], [3 / 2, 2]] ∧
      sc.y = [0, 2, 1, 0] := by
    have h : (match scaleValues meanDeviation true (some .cat) [(['b'], .poiss), (['a'], .cont)] [['a'], ['b']]
        [[5, 0], [10, 1], [15, 5], [20, 2]] [0, 2, 1, 0] with
        | .ok sc => decide (sc.X = [[-3 / 2, 0], [-1 / 2, 1], [1 / 2, 5], [3 / 2, 2]] ∧ sc.y = [0, 2, 1, 0])
        | .error _ => false) = true := by decide +kernel
    cases hp : scaleValues meanDeviation true (some .cat) [(['b'], .poiss), (['a'], .cont)] [['a'], ['b']]
        [[5, 0], [10, 1], [15, 5], [20, 2]] [0, 2, 1, 0] with
    | ok p => rw [hp] at h; exact ⟨p, rfl, of_decide_eq_true h⟩
    | error e => rw [hp] at h; simp at h
  set X := joined [['a'], ['b']] defaultTarget [[-3 / 2, 0], [-1 / 2, 1], [1 / 2, 5], [3 / 2, 2]] [0, 2, 1, 0] with hX
  set x := learnArgs exClfStd.est.params [(['b'], .poiss), (['a'], .cont), (defaultTarget, .cat)] (some [defaultTarget]) with hx
  have hnd : X.cols.Nodup := by decide
  have hwf : X.values.WF := by
    intro r hr
    have hr' : r ∈ ([[-3 / 2, 0, 0], [-1 / 2, 1, 2], [1 / 2, 5, 1], [3 / 2, 2, 0]] : List (List ℚ)) := hr
    simp only [List.mem_cons, List.not_mem_nil, or_false] at hr'
    rcases hr' with rfl | rfl | rfl | rfl <;> rfl
  obtain ⟨p, hp, hcols, henc, hpar, hch⟩ : ∃ p, prepareChecked X.values (some [(1, .poiss), (0, .cont), (2, .cat)]) ⟨none, some [2], none⟩ = .ok p ∧
      p.data.cols = 5 ∧ p.encs = [.poiss 1, .cont 0, .cat 2 [2, 3, 4] [0, 1, 2]] ∧ p.tabu.parents = some [2, 3, 4] ∧ p.tabu.children = none := by
    have h : (match prepareChecked X.values (some [(1, .poiss), (0, .cont), (2, .cat)]) ⟨none, some [2], none⟩ with
        | .ok p => decide (p.data.cols = 5 ∧ p.encs = [.poiss 1, .cont 0, .cat 2 [2, 3, 4] [0, 1, 2]] ∧ p.tabu.parents = some [2, 3, 4] ∧
            p.tabu.children = none)
        | .error _ => false) = true := by decide +kernel
    cases hp : prepareChecked X.values (some [(1, .poiss), (0, .cont), (2, .cat)]) ⟨none, some [2], none⟩ with
    | ok p => rw [hp] at h; exact ⟨p, rfl, of_decide_eq_true h⟩
    | error e => rw [hp] at h; simp at h
  have hted : ∀ te, p.tabu.edges = some te → (0, 2) ∉ te := by
    have h : (match prepareChecked X.values (some [(1, .poiss), (0, .cont), (2, .cat)]) ⟨none, some [2], none⟩ with
        | .ok p => (match p.tabu.edges with | some te => decide ((0, 2) ∉ te) | none => true)
        | .error _ => false) = true := by decide +kernel
    intro te hte
    rw [hp] at h
    simp only [hte] at h
    exact of_decide_eq_true h
  obtain ⟨w, g, hg, -, -⟩ := fromPandas_single (X := X) (x := x) (order := exVisit) (i := 0) (j := 2)
    (fun es => List.reverse_perm es) hnd hwf (by intro l hl; cases hl; decide) (by intro l hl; cases hl; decide) (by decide)
    ⟨(by intro l hl; cases hl), (by intro l hl; cases hl; decide), (by intro l hl; cases hl)⟩ (by rfl) (by rfl) hp rfl
    (by rw [henc]; rfl) (show 0 < 100 by decide) (by decide) (by decide) (by rw [hcols]; decide) (by rw [hcols]; decide)
    ⟨by decide, hted, (by intro l hl; rw [hpar] at hl; cases hl; decide), (by intro l hl; rw [hch] at hl; cases hl)⟩
    (by rw [henc]; decide) (by intro t ht; cases ht; norm_num [exClfStd]) (fun _ => 0) 16
  set ext : Ext := ⟨goTo w, fun _ => 0, 17, exVisit, meanDeviation⟩ with hext
  have hstd : IsSpread ext.std := meanDeviation_isSpread
  have hw : WellFormed [['a'], ['b']] none (exHeapUnits.tables.getD 0 [])
      (exClfStd.est.params.schema.map fun r => exHeapUnits.schemas.getD r []) := by
    refine ⟨by decide, by decide, by decide, ?_⟩
    intro l hl
    cases hl
    decide
  have hvar : ∀ i, ContinuousAt [['a'], ['b']] [(['b'], .poiss), (['a'], .cont)] i → ext.std (column (exHeapUnits.tables.getD 0 []) i) ≠ 0 := by
    intro i hi
    rw [exUnits_cont] at hi
    subst hi
    change meanDeviation (column (exHeapUnits.tables.getD 0 []) 0) ≠ 0
    decide +kernel
  have hfit : pureFit ext exClfStd.est.params (some .cat) (some [(['b'], .poiss), (['a'], .cont)]) none [['a'], ['b']]
      [[5, 0], [10, 1], [15, 5], [20, 2]] [0, 2, 1, 0] none = .ok ⟨sc.contIdx, sc.ssX, sc.ssY, [['a'], ['b']], defaultTarget, g, true⟩ := by
    unfold pureFit
    rw [if_neg (by decide)]
    have hsc' : scaleValues meanDeviation exClfStd.est.params.standardize (some .cat)
        (schemaValue (some [(['b'], .poiss), (['a'], .cont)]) [['a'], ['b']]) [['a'], ['b']]
        [[5, 0], [10, 1], [15, 5], [20, 2]] [0, 2, 1, 0] = .ok sc := hsc
    simp only [hext, hsc']
    rw [hscX, hscy]
    change (match fromPandas (goTo w) (fun _ => 0) 17 exVisit X x with
      | .error e => (.error e : Except Err Fit)
      | .ok g => .ok _) = _
    rw [hg]
    rfl
  have h1 : (clfFit ext exClfStd exHeapUnits [['a'], ['b']] 0 none [5, 9, 7, 5]).2.2 = none := by
    have hcl : labelClasses ([5, 9, 7, 5] : List ℕ) = [5, 7, 9] := by decide
    have hcode : (([5, 9, 7, 5] : List ℕ).map fun v => ((([5, 7, 9] : List ℕ).idxOf v : ℕ) : ℚ)) = [0, 2, 1, 0] := by decide +kernel
    unfold clfFit
    simp only [hcl]
    rw [if_neg (by simp), if_neg (by simp), hcode]
    simp only [(baseFit_spec _ _ _ _).2]
    change (match pureFit ext exClfStd.est.params (some .cat) (some [(['b'], .poiss), (['a'], .cont)]) none [['a'], ['b']]
      [[5, 0], [10, 1], [15, 5], [20, 2]] [0, 2, 1, 0] none with
      | .error err => _
      | .ok f => _ : Est × Option Err).2 = none
    rw [hfit]
  have key := (clf_units (y := [5, 9, 7, 5]) (yname := none) (cols := [['a'], ['b']]) (x := 0) (x' := 1) (a := fun _ => 9 / 5) (b := fun _ => 32) hstd exClfStd rfl
    (by intro t ht; cases ht) (h := exHeapUnits) hw (fun _ _ => by norm_num) exUnits_rows hvar).1
  exact ⟨ext, hstd, goTo_respects _, fun es => List.reverse_perm es, hw, rfl, hvar, h1, key ▸ h1⟩

end Verif.Sklearn
