import Verif.Recover.Torch
import Verif.Pytorch.WitnessIdentify
import Verif.Sklearn.WitnessRecover
import Mathlib.Probability.Independence.InfinitePi
import Mathlib.Probability.ProbabilityMassFunction.Integrals
import Mathlib.Probability.Distributions.Uniform

/-!
# Concrete cases for C154
-/

namespace Verif.Recover.TorchWitness

open MeasureTheory ProbabilityTheory Filter Verif.Pytorch Verif.Sklearn Finset
open Verif.Notears (Minimizer RespectsBounds NotWorse TabuNamed EqualErrors AcyclicWeights InBox)

/-! ### Rows -/

/-- An error of 1 or -1. -/
def sign (c : Bool) : ℚ := if c then 1 else -1

/-- The row `x0 = 3 + e0`, `x1 = 5 + 2 x0 + e1`. -/
def lineRow (c : Bool × Bool) : List ℚ := [3 + sign c.1, 5 + 2 * (3 + sign c.1) + sign c.2]

/-- The constants. -/
noncomputable def lineConst (j : ℕ) : ℝ := if j = 0 then 3 else 5

/-- The means. -/
noncomputable def lineMean (j : ℕ) : ℝ := if j = 0 then 3 else 11

/-- A fair coin for each error. -/
noncomputable def coin : Measure (Bool × Bool) := (PMF.uniformOfFintype (Bool × Bool)).toMeasure

noncomputable instance : IsProbabilityMeasure coin := by unfold coin; infer_instance

/-- Infinitely many independent tosses. -/
noncomputable def tosses : Measure (ℕ → Bool × Bool) := Measure.infinitePi fun _ => coin

noncomputable instance : IsProbabilityMeasure tosses := by unfold tosses; infer_instance

theorem coin_integral (F : Bool × Bool → ℝ) :
    ∫ c, F c ∂coin = (F (true, true) + F (true, false) + F (false, true) + F (false, false)) / 4 := by
  unfold coin
  rw [PMF.integral_eq_sum]
  simp only [PMF.uniformOfFintype_apply, Fintype.sum_prod_type, Fintype.sum_bool]
  norm_num
  ring

theorem tosses_integral (F : Bool × Bool → ℝ) : ∫ ω, F (ω 0) ∂tosses = ∫ c, F c ∂coin := by
  have h : tosses.map (fun ω => ω 0) = coin := Measure.infinitePi_map_eval _ 0
  rw [← h, integral_map (measurable_pi_apply 0).aemeasurable (Measurable.of_discrete (f := F)).aestronglyMeasurable]

theorem line_error (c : Bool × Bool) : rowError 2 lineWeights lineConst (lineRow c) 0 = sign c.1 ∧
    rowError 2 lineWeights lineConst (lineRow c) 1 = sign c.2 := by
  constructor <;> simp [rowError, lineRow, lineConst, lineWeights, realRow]

/-- The rows are as C154 assumes. -/
theorem line_rows : LinearRows tosses 2 lineWeights lineConst 1 lineMean (fun i ω => lineRow (ω i)) where
  length _ _ := rfl
  indep := by
    have h := iIndepFun_infinitePi (P := fun _ : ℕ => coin) (X := fun _ c (j : Fin 2) => realRow (lineRow c) j) fun _ => Measurable.of_discrete
    exact fun i i' hne => h.indepFun hne
  ident i := by
    have h : IdentDistrib (fun ω : ℕ → Bool × Bool => ω i) (fun ω => ω 0) tosses tosses :=
      ⟨(measurable_pi_apply i).aemeasurable, (measurable_pi_apply 0).aemeasurable, by
        rw [show tosses.map (fun ω => ω i) = coin from Measure.infinitePi_map_eval _ i,
          show tosses.map (fun ω => ω 0) = coin from Measure.infinitePi_map_eval _ 0]⟩
    exact h.comp (u := fun c (j : Fin 2) => realRow (lineRow c) j) Measurable.of_discrete
  square j hj := by
    refine MemLp.of_bound ((Measurable.of_discrete (f := fun c => realRow (lineRow c) j)).comp
      (measurable_pi_apply 0)).aestronglyMeasurable 14 (Eventually.of_forall fun ω => ?_)
    rcases ω 0 with ⟨a, c⟩
    interval_cases j <;> cases a <;> cases c <;> norm_num [realRow, lineRow, sign]
  mean j hj := by
    rw [tosses_integral fun c => realRow (lineRow c) j, coin_integral]
    interval_cases j <;> norm_num [realRow, lineRow, sign, lineMean]
  errorMean j hj := by
    rw [tosses_integral fun c => rowError 2 lineWeights lineConst (lineRow c) j, coin_integral]
    interval_cases j <;> simp only [line_error] <;> norm_num [sign]
  errorProduct j hj k hk := by
    rw [tosses_integral fun c => rowError 2 lineWeights lineConst (lineRow c) j * rowError 2 lineWeights lineConst (lineRow c) k, coin_integral]
    interval_cases j <;> interval_cases k <;> simp only [line_error] <;> norm_num [sign]

/-- Almost surely, both learn these equations from all tables with enough of these rows. -/
theorem line_eventually {ε : ℝ} (hε : 0 < ε) : ∃ δ > 0, ∀ᵐ ω ∂tosses, ∀ᶠ n in atTop,
    LearnsTorch (firstRows 2 n fun i => lineRow (ω i)) lineWeights lineConst 1 lineMean ε δ ∧
    LearnsRegressor (firstRows 2 n fun i => lineRow (ω i)) 1 lineWeights lineConst 1 lineMean ε δ := by
  obtain ⟨δ₁, h₁, r₁⟩ := torch_eventually_learned line_acyclic one_pos hε
  obtain ⟨δ₂, h₂, r₂⟩ := regressor_eventually_learned (d := 1) line_acyclic one_pos hε
  refine ⟨min δ₁ δ₂, lt_min h₁ h₂, ?_⟩
  filter_upwards [r₁ _ _ tosses _ _ _ inferInstance line_rows, r₂ _ _ tosses _ _ _ inferInstance line_rows] with ω g₁ g₂
  filter_upwards [g₁, g₂] with n k₁ k₂
  constructor
  · intro minimize init fuel a g q1 q2 q3 q4 q5 q6 q7 q8 q9 hp hopt hs
    exact k₁ minimize init fuel a g q1 q2 q3 q4 q5 q6 q7 q8 q9 (hp.trans (min_le_left _ _)) hopt (hs.trans (min_le_left _ _))
  · intro ext e h c f q1 q2 q3 q4 q5 q6 q7 q8 q9 q10 q11 q12 q13 q14 q15 hp hopt hs
    exact k₂ ext e h c f q1 q2 q3 q4 q5 q6 q7 q8 q9 q10 q11 q12 q13 q14 q15 (hp.trans (min_le_right _ _)) hopt (hs.trans (min_le_right _ _))

/-! ### Runs -/

/-- For every table with two columns there is a run to which `LearnsTorch` applies. -/
theorem learnsTorch_applies {X : Frame} (hwf : X.WF) (hX : X.cols = 2) (hne : X.rows ≠ []) : SchemaDict lineArgs.schema ∧ AllContinuous X lineArgs.schema ∧
    (hiddenUnits lineArgs.hidden).headD 0 = 0 ∧ lineArgs.useBias = true ∧ penalty 2 lineArgs.lasso lineArgs.ridge lineWeights = 0 ∧
    lineArgs.maxIter ≠ 0 ∧ ∃ (minimize : Minimizer ℝ) (g : Learned ℕ), RespectsBounds minimize ∧ fromNumpy minimize (fun _ => 0) 17 X lineArgs = .ok g ∧
      NotWorse (torchProblem g.arch g.encs (X.rows.map realRow) lineArgs.lasso lineArgs.ridge) minimize
        (boundsOf g.arch lineArgs.tabu) (linearParams 2 lineArgs.useBias lineWeights (X.intercept lineWeights)) ∧ g.score = 0 := by
  obtain ⟨c, rows⟩ := X
  obtain rfl : c = 2 := hX
  have hsd : SchemaDict lineArgs.schema := fun s hs => by cases hs
  have hcont : AllContinuous ⟨2, rows⟩ lineArgs.schema := by
    intro q hq
    change q ∈ (List.range 2).map (fun i => (i, Alias.cont)) at hq
    obtain ⟨i, -, rfl⟩ := List.mem_map.1 hq
    rfl
  have hlin : (hiddenUnits lineArgs.hidden).headD 0 = 0 := rfl
  have hpen : penalty 2 lineArgs.lasso lineArgs.ridge lineWeights = 0 := by simp [penalty, lineArgs]
  let w0 := linearParams 2 true lineWeights (Frame.intercept ⟨2, rows⟩ lineWeights)
  let a : Arch := archOf lineArgs 2
  have hlen : w0.length = a.sizes.sum := by
    rw [linearParams_length, sizes_linear (a := a) rfl]
    rfl
  have hbox : InBox (boundsOf a lineArgs.tabu) w0 := by
    refine inBox_permitted hlen ?_
    intro i j k hi hj hk hne
    have hm : a.m1 = 1 := by decide
    rw [hm] at hk
    obtain rfl : k = 0 := by omega
    change i < 2 at hi
    change j < 2 at hj
    have : w0.getD (a.pos j 0 i) 0 = lineWeights i j := by
      rw [← linearParams_weight 2 true lineWeights (Frame.intercept ⟨2, rows⟩ lineWeights) hi hj]
      unfold weightOf Arch.pos
      rw [hm, mul_one, add_zero]
      rfl
    rw [this] at hne
    have h2 : i = 0 ∧ j = 1 := by
      by_contra hn
      exact hne (if_neg hn)
    obtain ⟨rfl, rfl⟩ := h2
    exact ⟨by decide, by simp [lineArgs], by simp [lineArgs], by simp [lineArgs]⟩
  have hgo : ∀ k f g w, goTo w0 k f g w (boundsOf a lineArgs.tabu) = w0 := by
    intro k f g w
    unfold goTo
    rw [if_pos hbox]
  have hp : prepareChecked ⟨2, rows⟩ lineArgs.schema lineArgs.tabu =
      .ok ⟨(schemaOf ⟨2, rows⟩ lineArgs.schema).map fun q => .cont q.1, ⟨2, rows⟩, lineArgs.tabu⟩ := by
    rw [← prepare_cont _ _ _ hcont]
    unfold prepareChecked
    rw [if_neg (by
      have : rows.length ≠ 0 := fun h => hne (List.length_eq_zero_iff.1 h)
      simp only
      omega)]
    rfl
  have hlay : Layout ((schemaOf ⟨2, rows⟩ lineArgs.schema).map fun q => Enc.cont q.1) 2 a.d := prepare_isLayout hwf hsd hp
  have hscore : hFunc a ((schemaOf ⟨2, rows⟩ lineArgs.schema).map fun q => Enc.cont q.1) (a.net w0) = 0 :=
    (hFunc_zero_iff hlay w0).2.2 (linearParams_acyclic hlay rfl rfl line_acyclic)
  obtain ⟨s, hs, hs1, -, -⟩ := fit_first (P := torchProblem a ((schemaOf ⟨2, rows⟩ lineArgs.schema).map fun q => Enc.cont q.1)
    (rows.map realRow) lineArgs.lasso lineArgs.ridge) (w := initParams a fun _ => 0) (maxIter := 99) (fuel := 16) hgo
    (c := 0) (by change ((_ : ℝ) : WithTop ℝ) = _; rw [hscore]) (by norm_num)
  have hg := fromNumpy_eq (minimize := goTo w0) (init := fun _ => 0) (fuel := 17) (x := lineArgs) hp (by change (archOf lineArgs 2).valid = true; decide) (by
    change lossRaises ((schemaOf ⟨2, []⟩ lineArgs.schema).map fun q => Enc.cont q.1) = false
    decide) hs
  refine ⟨hsd, hcont, hlin, rfl, hpen, by decide, goTo w0, _, goTo_respects w0, hg, ?_, ?_⟩
  · intro k rho alpha start _ _ _
    have := hgo k ((torchProblem a ((schemaOf ⟨2, rows⟩ lineArgs.schema).map fun q => Enc.cont q.1)
      (rows.map realRow) lineArgs.lasso lineArgs.ridge).func rho alpha) ((torchProblem a ((schemaOf ⟨2, rows⟩ lineArgs.schema).map fun q => Enc.cont q.1)
      (rows.map realRow) lineArgs.lasso lineArgs.ridge).grad rho alpha) start
    refine le_of_eq ?_
    exact congrArg _ this
  · change hFunc a _ (a.net s.params) = 0
    rw [hs1]
    exact hscore

/-- The table with the feature `a` and the target `y`. -/
def lineTable (rows : List (ℚ × ℚ)) : Heap := ⟨[], [], [rows.map fun q => [q.1]], [rows.map fun q => q.2]⟩

theorem lineTable_data (rows : List (ℚ × ℚ)) : lineCall.data (lineTable rows) = ⟨2, rows.map fun q => [q.1, q.2]⟩ := by
  have : ∀ rows : List (ℚ × ℚ), List.zipWith (fun (r : List ℚ) v => r ++ [v]) (rows.map fun q => [q.1]) (rows.map fun q => q.2) =
      rows.map fun q => [q.1, q.2] := by
    intro rows
    induction rows with
    | nil => rfl
    | cons q rows ih => simp only [List.map_cons, List.zipWith_cons_cons, ih]; rfl
  exact congrArg (Frame.mk 2) (this rows)

theorem lineTable_values (rows : List (ℚ × ℚ)) :
    (joined [['a']] ['y'] (rows.map fun q => [q.1]) (rows.map fun q => q.2)).values = ⟨2, rows.map fun q => [q.1, q.2]⟩ :=
  lineTable_data rows

/-- For every such table there is a fit to which `LearnsRegressor` applies. -/
theorem learnsRegressor_applies {rows : List (ℚ × ℚ)} (hne : rows ≠ []) : ∃ (ext : Ext) (f : Fit), (∀ es, (ext.order es).Perm es) ∧
    lineCall.WF lineReg (lineTable rows) ∧ Fits ext lineReg (lineTable rows) lineCall f ∧
    (∀ r, lineReg.params.schema = some r → targetName lineCall.yname ∉ ((lineTable rows).schemas.getD r []).map Prod.fst) ∧
    NoSuffix (lineCall.cols ++ [targetName lineCall.yname]) ∧ (∀ p ∈ usedSchema lineReg (lineTable rows) lineCall.cols, p.2 = .cont) ∧
    lineReg.targetType = some .cont ∧ (hiddenUnits lineReg.params.hidden).headD 0 = 0 ∧ lineReg.params.standardize = false ∧
    lineReg.params.fitIntercept = true ∧ RespectsBounds ext.minimize ∧ lineReg.params.maxIter ≠ 0 ∧
    penalty 2 lineReg.params.alpha lineReg.params.beta lineWeights = 0 ∧
    (∀ t, TabuNamed (lineCall.cols ++ [targetName lineCall.yname]) (lineCall.tabu lineReg (lineTable rows)) t →
      NotWorse (torchProblem f.graph.arch f.graph.encs ((lineCall.data (lineTable rows)).rows.map realRow) lineReg.params.alpha lineReg.params.beta)
        ext.minimize (boundsOf f.graph.arch t)
        (linearParams 2 lineReg.params.fitIntercept lineWeights ((lineCall.data (lineTable rows)).intercept lineWeights))) ∧
    f.graph.score = 0 := by
  have hdat := lineTable_data rows
  let D : Frame := ⟨2, rows.map fun q => [q.1, q.2]⟩
  have hwf : D.WF := by
    intro r hr
    obtain ⟨q, -, rfl⟩ := List.mem_map.1 hr
    rfl
  have hrows : D.rows.length ≠ 0 := by
    simpa [D] using hne
  let w0 := linearParams 2 true lineWeights (D.intercept lineWeights)
  let a : Arch := archOf lineArgs' 2
  have hlen : w0.length = a.sizes.sum := by
    rw [linearParams_length, sizes_linear (a := a) rfl]
    rfl
  have hbox : InBox (boundsOf a lineArgs'.tabu) w0 := by
    refine inBox_permitted hlen ?_
    intro i j k hi hj hk hne
    have hm : a.m1 = 1 := by decide
    rw [hm] at hk
    obtain rfl : k = 0 := by omega
    change i < 2 at hi
    change j < 2 at hj
    have : w0.getD (a.pos j 0 i) 0 = lineWeights i j := by
      rw [← linearParams_weight 2 true lineWeights (D.intercept lineWeights) hi hj]
      unfold weightOf Arch.pos
      rw [hm, mul_one, add_zero]
      rfl
    rw [this] at hne
    have h2 : i = 0 ∧ j = 1 := by
      by_contra hn
      exact hne (if_neg hn)
    obtain ⟨rfl, rfl⟩ := h2
    exact ⟨by decide, by simp [lineArgs'], by simp [lineArgs'], by simp [lineArgs']⟩
  have hgo : ∀ k f g w, goTo w0 k f g w (boundsOf a lineArgs'.tabu) = w0 := by
    intro k f g w
    unfold goTo
    rw [if_pos hbox]
  have hlearn : ∃ g, fromNumpy (goTo w0) (fun _ => 0) 17 D lineArgs' = .ok g ∧ g.arch = a ∧ g.score = 0 := by
    have hsd : SchemaDict lineArgs'.schema := by intro s hs; cases hs; decide
    have hcont : AllContinuous D lineArgs'.schema := by
      intro q hq
      change q ∈ [(0, Alias.cont), (1, Alias.cont)] at hq
      simp only [List.mem_cons, List.not_mem_nil, or_false] at hq
      rcases hq with rfl | rfl <;> rfl
    have hp : prepareChecked D lineArgs'.schema lineArgs'.tabu =
        .ok ⟨(schemaOf D lineArgs'.schema).map fun q => .cont q.1, D, lineArgs'.tabu⟩ := by
      rw [← prepare_cont _ _ _ hcont]
      unfold prepareChecked
      rw [if_neg (by
        have : D.cols = 2 := rfl
        rw [this]
        omega)]
      rfl
    have hlay : Layout ((schemaOf D lineArgs'.schema).map fun q => Enc.cont q.1) 2 a.d := prepare_isLayout hwf hsd hp
    have hscore : hFunc a ((schemaOf D lineArgs'.schema).map fun q => Enc.cont q.1) (a.net w0) = 0 :=
      (hFunc_zero_iff hlay w0).2.2 (linearParams_acyclic hlay rfl rfl line_acyclic)
    obtain ⟨s, hs, hs1, -, -⟩ := fit_first (P := torchProblem a ((schemaOf D lineArgs'.schema).map fun q => Enc.cont q.1)
      (D.rows.map realRow) lineArgs'.lasso lineArgs'.ridge) (w := initParams a fun _ => 0) (maxIter := 99)
      (fuel := 16) hgo (c := 0) (by change ((_ : ℝ) : WithTop ℝ) = _; rw [hscore]) (by norm_num)
    refine ⟨_, fromNumpy_eq (minimize := goTo w0) (init := fun _ => 0) (fuel := 17) (x := lineArgs') hp
      (by change (archOf lineArgs' 2).valid = true; decide) (by
        change lossRaises ((schemaOf ⟨2, []⟩ lineArgs'.schema).map fun q => Enc.cont q.1) = false
        decide) hs, rfl, ?_⟩
    change hFunc a _ (a.net s.params) = 0
    rw [hs1]
    exact hscore
  let X := joined [['a']] ['y'] (rows.map fun q => [q.1]) (rows.map fun q => q.2)
  let x := learnArgs lineReg.params [(['a'], .cont), (['y'], .cont)] (some [['y']])
  have hv : X.values = D := lineTable_values rows
  have hnd : X.cols.Nodup := by change [['a'], ['y']].Nodup; decide
  have hns : NoSuffix (lineCall.cols ++ [targetName lineCall.yname]) := noSuffix_of_letters (by decide)
  obtain ⟨g0, hg0, harch0, hscore0⟩ := hlearn
  obtain ⟨s, t, h1, h2, h3, -, hok⟩ := (fromPandas_total (goTo w0) (fun _ => 0) 17 exVisit X x (fun es => List.reverse_perm es) hnd
    (hv ▸ hwf) (by intro l hl; cases hl; decide)).2.2.2 (by
      intro l hl
      cases hl
      change ∀ p ∈ [(['a'], Alias.cont), (['y'], Alias.cont)], p.1 ∈ [['a'], ['y']]
      decide) (by
      change ∀ b ∈ [true, true], b = true
      decide)
    ⟨(by intro l hl; cases hl), (by
      intro l hl
      cases hl
      change ∀ n ∈ [['y']], n ∈ [['a'], ['y']]
      decide), (by intro l hl; cases hl)⟩
  have hs : s = some [(0, .cont), (1, .cont)] := by
    have := locateSchema_of_named hnd h1
    have h' : locateSchema X.cols x.schema = .ok (some [(0, .cont), (1, .cont)]) := by rfl
    rw [h'] at this
    exact (Except.ok.inj this).symm
  have hname : ∀ t', TabuNamed X.cols x.tabu t' → t' = ⟨none, some [1], none⟩ := by
    intro t' ht'
    have := Notears.translate_of_named hnd ht'
    have h' : Notears.translate X.cols x.tabu = .ok ⟨none, some [1], none⟩ := by rfl
    rw [h'] at this
    exact (Except.ok.inj this).symm
  have ht := hname t h3
  subst hs ht
  obtain ⟨nm, g, hg, -, -, harch, henc, hparams, -⟩ := hok g0 (by rw [hv]; exact hg0)
  have hfit : Fits ⟨goTo w0, fun _ => 0, 17, exVisit, fun _ => 0⟩ lineReg (lineTable rows) lineCall
      ⟨[], [], none, lineCall.cols, ['y'], g, true⟩ := by
    rw [fits_iff]
    unfold pureFit
    rw [if_neg (by
      change ¬ ((rows.map fun q => [q.1]).length = 0 ∨ 1 = 0 ∨ (rows.map fun q => q.2).length ≠ (rows.map fun q => [q.1]).length)
      simpa using hne)]
    change (match fromPandas (goTo w0) (fun _ => 0) 17 exVisit X x with
      | .error e => (.error e : Except Err Fit)
      | .ok g => .ok _) = _
    rw [hg]
    rfl
  have hw : lineCall.WF lineReg (lineTable rows) := by
    refine ⟨by decide, by decide, ?_, fun l hl => (by cases hl)⟩
    intro r hr
    obtain ⟨q, -, rfl⟩ := List.mem_map.1 hr
    rfl
  refine ⟨_, _, fun es => List.reverse_perm es, hw, hfit, fun r hr => (by cases hr), hns, ?_, rfl, rfl, rfl, rfl, goTo_respects _, by decide,
    by simp [penalty, lineReg], ?_, ?_⟩
  · change ∀ q ∈ [((['a'], .cont) : Str.Str × Alias)], q.2 = .cont
    decide
  · intro t' ht'
    rw [hname t' ht', hdat]
    intro k rho alpha start _ _ _
    have harch' : g.arch = a := harch.trans harch0
    simp only [harch']
    exact le_of_eq (congrArg _ (hgo k _ _ start))
  · unfold Learned.score at hscore0 ⊢
    rw [harch, henc, hparams, hscore0]

end Verif.Recover.TorchWitness
