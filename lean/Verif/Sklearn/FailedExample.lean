import Verif.Sklearn.PropsFailed
import Verif.Sklearn.Examples

/-!
# A `fit` that raises and changes the predictions (C96)
-/

namespace Verif.Sklearn

open Verif.Str Verif.Pytorch
open Verif.Notears (Tabu Minimizer)

/-- The standard deviation of two numbers. -/
def stdOfTwo (l : List ℚ) : ℚ := |l.getD 0 0 - l.getD 1 0| / 2

/-- Any optimiser; the order of the types is kept. -/
def failExt (minimize : Minimizer ℝ) : Ext := ⟨minimize, fun _ => 0, 17, ⟨id, id, List.Perm.refl⟩, stdOfTwo⟩

/-- A dictionary of types; two tables, the second with a negative count; two targets. -/
def failHeap : Heap := ⟨[], [[(['a'], .cont), (['b'], .poiss)]], [[[0, 1], [2, 1]], [[0, -1], [2, 1]]], [[0, 2], [10, 20]]⟩

/-- A regressor that standardises; no iterations of the optimiser, so that every prediction is the mean. -/
noncomputable def failReg : Est := ⟨{ schema := some 0, fitIntercept := false, standardize := true, maxIter := 0 }, none, none⟩

def failCall (i : ℕ) : Call := ⟨[['a'], ['b']], i, i, some ['y']⟩

/-- What the regressor becomes in the call. -/
noncomputable def failReg' : Est := { failReg with targetType := some .cont }

theorem fail_scale0 : scaleValues stdOfTwo true (some .cont) [(['a'], .cont), (['b'], .poiss)] [['a'], ['b']] [[0, 1], [2, 1]] [0, 2] =
    .ok ⟨[[-1, 1], [1, 1]], [-1, 1], [0], [(1, 1)], some (1, 1)⟩ := by
  have h1 : contColumns [['a'], ['b']] [(['a'], .cont), (['b'], .poiss)] = .ok [0] := by rfl
  have h2 : scalerFit stdOfTwo ([[0, 1], [2, 1]].map fun r : List ℚ => r.getD 0 0) = (1, 1) := by decide +kernel
  have h3 : scalerFit stdOfTwo [0, 2] = (1, 1) := by decide +kernel
  unfold scaleValues
  rw [h1, if_pos rfl]
  simp only [List.map_cons, List.map_nil] at h2
  simp only [List.cons_ne_nil, if_false, List.map_cons, List.map_nil, if_true, h2, h3]
  have h4 : scaleRow id [0] [(1, 1)] [0, 1] = [-1, 1] := by decide +kernel
  have h5 : scaleRow id [0] [(1, 1)] [2, 1] = [1, 1] := by decide +kernel
  have h6 : scaleValue (1, 1) 0 = -1 := by decide +kernel
  have h7 : scaleValue (1, 1) 2 = 1 := by decide +kernel
  rw [h4, h5, h6, h7]

theorem fail_scale1 : scaleValues stdOfTwo true (some .cont) [(['a'], .cont), (['b'], .poiss)] [['a'], ['b']] [[0, -1], [2, 1]] [10, 20] =
    .ok ⟨[[-1, -1], [1, 1]], [-1, 1], [0], [(1, 1)], some (15, 5)⟩ := by
  have h1 : contColumns [['a'], ['b']] [(['a'], .cont), (['b'], .poiss)] = .ok [0] := by rfl
  have h2 : scalerFit stdOfTwo ([[0, -1], [2, 1]].map fun r : List ℚ => r.getD 0 0) = (1, 1) := by decide +kernel
  have h3 : scalerFit stdOfTwo [10, 20] = (15, 5) := by decide +kernel
  unfold scaleValues
  rw [h1, if_pos rfl]
  simp only [List.map_cons, List.map_nil] at h2
  simp only [List.cons_ne_nil, if_false, List.map_cons, List.map_nil, if_true, h2, h3]
  have h4 : scaleRow id [0] [(1, 1)] [0, -1] = [-1, -1] := by decide +kernel
  have h5 : scaleRow id [0] [(1, 1)] [2, 1] = [1, 1] := by decide +kernel
  have h6 : scaleValue (15, 5) 10 = -1 := by decide +kernel
  have h7 : scaleValue (15, 5) 20 = 1 := by decide +kernel
  rw [h4, h5, h6, h7]

/-- The first call succeeds. -/
theorem fail_fits (minimize : Minimizer ℝ) : ∃ f, Fits (failExt minimize) failReg' failHeap (failCall 0) f ∧ f.contIdx = [0] ∧
    f.ssX = [(1, 1)] ∧ f.ssY = some (1, 1) ∧ f.features = [['a'], ['b']] ∧ f.target = ['y'] ∧ f.graph.edges = [] ∧
    f.graph.bias ['y'] = none := by
  set X := joined [['a'], ['b']] ['y'] [[-1, 1], [1, 1]] [-1, 1] with hX
  set x := learnArgs failReg'.params [(['a'], .cont), (['b'], .poiss), (['y'], .cont)] (some [['y']]) with hx
  have hv : X.values = ⟨3, [[-1, 1, -1], [1, 1, 1]]⟩ := rfl
  have hnd : X.cols.Nodup := by decide
  have hwf : X.values.WF := by
    intro r hr
    rw [hv] at hr
    simp only [List.mem_cons, List.not_mem_nil, or_false] at hr
    rcases hr with rfl | rfl <;> rfl
  have hns : NoSuffix X.cols := noSuffix_of_letters (by decide)
  obtain ⟨s, t, h1, h2, h3, -, hok⟩ := (fromPandas_total minimize (fun _ => 0) 17 ⟨id, id, List.Perm.refl⟩ X x (fun es => List.Perm.refl _) hnd hwf
    (by intro l hl; cases hl; decide)).2.2.2 (by intro l hl; cases hl; decide) (by decide)
    ⟨(by intro l hl; cases hl), (by intro l hl; cases hl; decide), (by intro l hl; cases hl)⟩
  have hs : s = some [(0, .cont), (1, .poiss), (2, .cont)] := by
    have := locateSchema_of_named hnd h1
    have h' : locateSchema X.cols x.schema = .ok (some [(0, .cont), (1, .poiss), (2, .cont)]) := by rfl
    rw [h'] at this
    exact (Except.ok.inj this).symm
  obtain ⟨g0, hg0, -, -, -, hb⟩ := ((fromNumpy_outcome minimize (fun _ => 0) (le_refl 17) X.values { x with schema := s, tabu := t } hwf
    h2).2 (by
      subst hs
      rw [hv]
      refine ⟨by simp, by simp, ?_, ?_⟩
      · intro l hl i
        cases hl
        simp only [List.map_cons, List.map_nil, List.mem_cons, List.not_mem_nil, or_false]
        omega
      · intro i hi v hv
        simp [schemaOf] at hi
        subst hi
        simp [Frame.column] at hv
        rw [hv]; norm_num)).2.2 (by rintro ⟨m, ms, hm, -⟩; cases hm) (Or.inl rfl)
  have hed := (fromNumpy_no_iterations hwf h2 hg0 rfl).1
  obtain ⟨nm, g, hg, hnames, -, harch, henc, -, -, -, -, -, -, hedges⟩ := hok g0 hg0
  have hlay := (fromNumpy_layout hwf h2 hg0).1
  obtain ⟨u, hu, hu'⟩ := hlay.var (u := 2) (by rw [hv]; decide)
  obtain ⟨v, hv', hfv⟩ := hnames u hu 0 2 (by rw [← List.head?_eq_getElem?, hlay.head u hu, hu'])
  have hd2 : 2 < g0.arch.d := hlay.col_lt hu (by
    have := hlay.head u hu
    rw [hu'] at this
    exact List.mem_of_mem_head? (by rw [this]; rfl))
  have hny : nm 2 = ['y'] := by
    rw [hu'] at hv'
    have : X.cols[2]? = some ['y'] := rfl
    rw [this] at hv'
    cases hv'
    exact hfv
  obtain ⟨e1, e2⟩ := hedges (hns.noClash _)
  refine ⟨⟨[0], [(1, 1)], some (1, 1), [['a'], ['b']], ['y'], g, true⟩, ?_, rfl, rfl, rfl, rfl, rfl, ?_, ?_⟩
  · rw [fits_iff]
    unfold pureFit
    rw [if_neg (by decide)]
    have hsc : scaleValues (failExt minimize).std failReg'.params.standardize failReg'.targetType
        (schemaValue (failReg'.params.schema.map fun r => failHeap.schemas.getD r []) (failCall 0).cols) (failCall 0).cols
        (failHeap.tables.getD (failCall 0).x []) (failHeap.series.getD (failCall 0).y []) = _ := fail_scale0
    rw [hsc]
    change (match fromPandas minimize (fun _ => 0) 17 ⟨id, id, List.Perm.refl⟩ X x with
      | .error e => (.error e : Except Err Fit)
      | .ok g => .ok _) = _
    rw [hg]
    rfl
  · change g.edges = []
    rw [hed] at e1
    exact List.perm_nil.1 e1
  · change g.bias ['y'] = none
    rw [← hny, (e2 2 hd2).1]
    exact (hb 2).2 rfl

/-- The second call raises `ValueError`. -/
theorem fail_raises (minimize : Minimizer ℝ) {e : Est} (hp : e.params = failReg.params) (ht : e.targetType = some .cont) {h : Heap}
    (hk : failHeap.Keeps h) : (baseFit (failExt minimize) e h (failCall 1)).2.2 = some .valueError := by
  rw [(baseFit_spec _ e h _).2, hp, ht]
  have h1 : h.schemas.getD 0 [] = [(['a'], .cont), (['b'], .poiss)] := prefix_getD hk.2.1 (by decide) _
  have h2 : h.tables.getD 1 [] = [[0, -1], [2, 1]] := prefix_getD hk.2.2.1 (by decide) _
  have h3 : h.series.getD 1 [] = [10, 20] := prefix_getD hk.2.2.2 (by decide) _
  have hpf : pureFit (failExt minimize) failReg.params (some .cont) (failReg.params.schema.map fun r => h.schemas.getD r [])
      (failReg.params.tabuParents.map fun r => h.lists.getD r []) (failCall 1).cols (h.tables.getD (failCall 1).x [])
      (h.series.getD (failCall 1).y []) (failCall 1).yname = .error .valueError := by
    change pureFit (failExt minimize) failReg.params (some .cont) (some (h.schemas.getD 0 [])) none [['a'], ['b']] (h.tables.getD 1 [])
      (h.series.getD 1 []) (some ['y']) = .error .valueError
    rw [h1, h2, h3]
    unfold pureFit
    rw [if_neg (by decide)]
    have hsc : scaleValues (failExt minimize).std failReg.params.standardize (some .cont)
        (schemaValue (some [(['a'], .cont), (['b'], .poiss)]) [['a'], ['b']]) [['a'], ['b']] [[0, -1], [2, 1]] [10, 20] = _ := fail_scale1
    rw [hsc]
    rfl
  rw [hpf]

/-- **C96**, a counterexample: a regressor that standardises is fitted, and a second `fit` raises `ValueError` because of a negative
count. The prediction for the same row was 1 before, the mean of the first target, and is 15 after, the mean of the second. -/
theorem failed_fit_changes (minimize : Minimizer ℝ) : ∃ h1 e1 h2 e2,
    regFit (failExt minimize) failReg failHeap (failCall 0) = (h1, e1, none) ∧
    regFit (failExt minimize) e1 h1 (failCall 1) = (h2, e2, some .valueError) ∧
    basePredict e1 false [[7, 3]] = .ok [[1]] ∧ basePredict e2 false [[7, 3]] = .ok [[15]] := by
  obtain ⟨f, hf, f1, f2, f3, f4, f5, f6, f7⟩ := fail_fits minimize
  have hw : (failCall 0).WF failReg' failHeap := by
    refine ⟨by decide, by decide, by decide, ?_⟩
    intro l hl
    cases hl
    decide
  have hkey : ∀ r, failReg'.params.schema = some r → targetName (failCall 0).yname ∉ (failHeap.schemas.getD r []).map Prod.fst := by
    intro r hr
    cases hr
    decide
  have hns : NoSuffix ((failCall 0).cols ++ [targetName (failCall 0).yname]) := noSuffix_of_letters (by decide)
  obtain ⟨a, b, ha, hb, hpred⟩ := fits_linear (fun es => List.Perm.refl _) hw hf hkey hns
    (by change ∀ q ∈ [((['a'], .cont) : Str × Alias), (['b'], .poiss)], q.2 = .cont ∨ q.2 = .bin ∨ q.2 = .poiss; decide)
    (Or.inl rfl) rfl (le_refl _) rfl
  have ha' : a = .cont := by
    have : (some Alias.cont : Option Alias) = some a := ha
    cases this
    rfl
  have hb' : b = 0 := by
    unfold interceptOf at hb
    split_ifs at hb
    cases hb
    rw [f5, f7]
    rfl
  obtain ⟨ys, hys, hall⟩ := hpred false [[7, 3]] (by decide) (by
    intro r hr
    rw [List.mem_singleton] at hr
    subst hr
    intro i v hi
    have hs : usedSchema failReg' failHeap (failCall 0).cols = [(['a'], .cont), (['b'], .poiss)] := rfl
    rw [hs]
    have hi' : [['a'], ['b']][i]? = some v := hi
    match i, hi' with
    | 0, hi' => cases hi'; exact ⟨by decide, by decide⟩
    | 1, hi' => cases hi'; exact ⟨by intro _; decide +kernel, by decide⟩)
  have hcoef : ∀ k, (coef f).getD k 0 = 0 := by
    intro k
    unfold coef edgesToNode
    rw [f6, f4]
    match k with
    | 0 => rfl
    | 1 => rfl
    | (k + 2) => rfl
  have hys' : ys = [[1]] := by
    cases hall with
    | cons h1 h2 =>
      cases h2
      rw [h1]
      simp only [hcoef, zero_mul, Finset.sum_const_zero, hb', ha', linkOf, unscale]
      have hst : failReg'.params.standardize = true := rfl
      rw [hst, f3]
      norm_num
  set e1 : Est := { failReg' with fitted := some f } with he1
  have hp1 : basePredict e1 false [[7, 3]] = .ok [[1]] := by rw [hys, hys']
  set h1 := (regFit (failExt minimize) failReg failHeap (failCall 0)).1 with hh1
  have hr1 : regFit (failExt minimize) failReg failHeap (failCall 0) = (h1, e1, none) := by
    unfold Fits at hf
    exact Prod.ext rfl hf
  have hk : failHeap.Keeps h1 := by
    have := ((fits_keep (failExt minimize)).1 [failCall 0] failReg failHeap).1
    exact this
  have hr2 := fail_raises minimize (e := e1) rfl rfl hk
  set r2 := baseFit (failExt minimize) e1 h1 (failCall 1) with hr2'
  have hb2 : r2.2 = (r2.2.1, some .valueError) := Prod.ext rfl hr2
  refine ⟨h1, e1, r2.1, r2.2.1, hr1, Prod.ext rfl hb2, hp1, ?_⟩
  have hs0 : h1.schemas.getD 0 [] = [(['a'], .cont), (['b'], .poiss)] := prefix_getD hk.2.1 (by decide) _
  have ht0 : h1.tables.getD 1 [] = [[0, -1], [2, 1]] := prefix_getD hk.2.2.1 (by decide) _
  have hy0 : h1.series.getD 1 [] = [10, 20] := prefix_getD hk.2.2.2 (by decide) _
  have hus : usedSchema e1 h1 (failCall 1).cols = [(['a'], .cont), (['b'], .poiss)] := by
    change schemaValue (some (h1.schemas.getD 0 [])) _ = _
    rw [hs0]
    rfl
  obtain ⟨idxs, hi, hpr⟩ := failed_fit_predict (f := f) hb2 rfl rfl rfl (by rw [f4]; rfl) (by rw [f5]; rfl)
    (by change h1.tables.getD 1 [] ≠ []; rw [ht0]; simp) (by decide)
    (by change (h1.series.getD 1 []).length = (h1.tables.getD 1 []).length; rw [ht0, hy0]; rfl)
    (by rw [hus]; decide) (by rw [hus]; decide)
  have hidx : idxs = [0] := by
    rw [hus] at hi
    unfold ContPositions at hi
    have h2 : ([(['a'], .cont), (['b'], .poiss)].filter fun p : Str × Alias => p.2 = .cont) = [(['a'], .cont)] := by decide
    rw [h2] at hi
    cases idxs with
    | nil => simp at hi
    | cons i rest =>
      cases rest with
      | cons j rest => simp at hi
      | nil =>
        have hi' : [['a'], ['b']][i]? = some ['a'] := by
          have := hi
          simp only [List.map_cons, List.map_nil, List.cons.injEq, and_true] at this
          exact this
        match i, hi' with
        | 0, _ => rfl
        | 1, hi' => cases hi'
        | (i + 2), hi' => cases hi'
  have hold := basePredict_scaled (e := e1) (f := f) rfl rfl (fits_ready hw hf) f3 false [[7, 3]]
  have hnew := hpr false [[7, 3]]
  have hcs : columnScales (failExt minimize).std (h1.tables.getD (failCall 1).x []) idxs = [(1, 1)] := by
    change columnScales stdOfTwo (h1.tables.getD 1 []) idxs = _
    rw [ht0, hidx]
    decide +kernel
  have hsf : scalerFit (failExt minimize).std (h1.series.getD (failCall 1).y []) = (15, 5) := by
    change scalerFit stdOfTwo (h1.series.getD 1 []) = _
    rw [hy0]
    decide +kernel
  rw [hcs, hidx, hsf] at hnew
  rw [hp1, f1, f2] at hold
  rw [hnew]
  generalize basePredict { e1 with params := { e1.params with standardize := false } } false
    ([[7, 3]].map (scaleRow (if (false : Bool) = true then truncate else id) [0] [(1, 1)])) = R at hold
  cases R with
  | error er => cases hold
  | ok zs =>
    have hz : [[1]] = zs.map fun v => v.map fun a => a * ((1 : ℚ) : ℝ) + ((1 : ℚ) : ℝ) := Except.ok.inj hold
    have hz' : zs = [[0]] := by
      cases zs with
      | nil => simp at hz
      | cons v rest =>
        cases rest with
        | cons _ _ => simp at hz
        | nil =>
          cases v with
          | nil => simp at hz
          | cons z r =>
            cases r with
            | cons _ _ => simp at hz
            | nil =>
              simp at hz
              rw [hz]
    subst hz'
    change Except.ok ([[(0 : ℝ)]].map fun v => v.map fun a => a * ((5 : ℚ) : ℝ) + ((15 : ℚ) : ℝ)) = _
    norm_num

end Verif.Sklearn
