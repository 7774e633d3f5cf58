import Verif.Sklearn.Recover
import Verif.Sklearn.Examples
import Verif.Pytorch.WitnessIdentify

/-!
# Concrete cases for C136
-/

namespace Verif.Sklearn

open Verif.Str Verif.Pytorch Finset
open Verif.Notears (Tabu Minimizer RespectsBounds NotWorse EqualErrors AcyclicWeights TabuNamed InBox)

/-- The feature `a` and the target `y` of `lineFrame`. -/
def lineHeap : Heap := ⟨[], [], [[[4], [4], [2], [2]]], [[14, 12, 10, 8]]⟩

/-- A regressor without penalties. -/
noncomputable def lineReg : Est := ⟨{}, some .cont, none⟩

def lineCall : Call := ⟨[['a']], 0, 0, some ['y']⟩

theorem line_data : lineCall.data lineHeap = lineFrame := rfl

/-- The arguments of `from_numpy`. -/
noncomputable def lineArgs' : Args ℕ :=
  { schema := some [(0, .cont), (1, .cont)], lasso := 0, ridge := 0, useBias := true, wThreshold := some 0, tabu := ⟨none, some [1], none⟩ }

/-- The true parameters. -/
noncomputable def lineTrue : List ℝ := linearParams 2 true lineWeights (lineFrame.intercept lineWeights)

theorem line_box : InBox (boundsOf (archOf lineArgs' 2) lineArgs'.tabu) lineTrue := by
  refine inBox_permitted (by rw [lineTrue, linearParams_length, sizes_linear (a := archOf lineArgs' 2) rfl]; rfl) ?_
  intro i j k hi hj hk hne
  have hm : (archOf lineArgs' 2).m1 = 1 := by decide
  rw [hm] at hk
  obtain rfl : k = 0 := by omega
  change i < 2 at hi
  change j < 2 at hj
  have : lineTrue.getD ((archOf lineArgs' 2).pos j 0 i) 0 = lineWeights i j := by
    rw [← linearParams_weight 2 true lineWeights (lineFrame.intercept lineWeights) hi hj]
    unfold weightOf Arch.pos
    rw [hm, mul_one, add_zero]
    rfl
  rw [this] at hne
  have h2 : i = 0 ∧ j = 1 := by
    by_contra hn
    exact hne (if_neg hn)
  obtain ⟨rfl, rfl⟩ := h2
  exact ⟨by decide, by simp [lineArgs'], by simp [lineArgs'], by simp [lineArgs']⟩

theorem line_goTo (k : ℕ) (f : List ℝ → WithTop ℝ) (g : List ℝ → List ℝ) (w : List ℝ) :
    goTo lineTrue k f g w (boundsOf (archOf lineArgs' 2) lineArgs'.tabu) = lineTrue := by
  unfold goTo
  rw [if_pos line_box]

theorem line_learn : ∃ g, fromNumpy (goTo lineTrue) (fun _ => 0) 17 lineFrame lineArgs' = .ok g ∧ g.arch = archOf lineArgs' 2 ∧ g.score = 0 := by
  have hwf : lineFrame.WF := by unfold Frame.WF; decide +kernel
  have hsd : SchemaDict lineArgs'.schema := by intro s hs; cases hs; decide
  have hcont : AllContinuous lineFrame lineArgs'.schema := by
    intro q hq
    change q ∈ [(0, Alias.cont), (1, Alias.cont)] at hq
    simp only [List.mem_cons, List.not_mem_nil, or_false] at hq
    rcases hq with rfl | rfl <;> rfl
  have hp : prepareChecked lineFrame lineArgs'.schema lineArgs'.tabu =
      .ok ⟨(schemaOf lineFrame lineArgs'.schema).map fun q => .cont q.1, lineFrame, lineArgs'.tabu⟩ := by
    rw [← prepare_cont _ _ _ hcont]
    rfl
  have hlay : Layout ((schemaOf lineFrame lineArgs'.schema).map fun q => Enc.cont q.1) 2 (archOf lineArgs' 2).d := prepare_isLayout hwf hsd hp
  have hscore : hFunc (archOf lineArgs' 2) ((schemaOf lineFrame lineArgs'.schema).map fun q => Enc.cont q.1)
      ((archOf lineArgs' 2).net lineTrue) = 0 :=
    (hFunc_zero_iff hlay lineTrue).2.2 (linearParams_acyclic hlay rfl rfl line_acyclic)
  obtain ⟨s, hs, hs1, -, -⟩ := fit_first (P := torchProblem (archOf lineArgs' 2) ((schemaOf lineFrame lineArgs'.schema).map fun q => Enc.cont q.1)
    (lineFrame.rows.map realRow) lineArgs'.lasso lineArgs'.ridge) (w := initParams (archOf lineArgs' 2) fun _ => 0) (maxIter := 99)
    (fuel := 16) line_goTo (c := 0) (by change ((_ : ℝ) : WithTop ℝ) = _; rw [hscore]) (by norm_num)
  refine ⟨_, fromNumpy_eq (minimize := goTo lineTrue) (init := fun _ => 0) (fuel := 17) (x := lineArgs') hp (by decide) (by decide) hs, rfl, ?_⟩
  change hFunc (archOf lineArgs' 2) _ ((archOf lineArgs' 2).net s.params) = 0
  rw [hs1]
  exact hscore

/-- The hypotheses of `fits_recovers` and `fromNumpy_predicts` can be met: for data that follow `y = 5 + 2 a + error`, an optimiser that
finds the equations gives a regressor with the coefficient 2 which predicts 17 for `a = 6`. -/
theorem line_regressor : ∃ f, Fits ⟨goTo lineTrue, fun _ => 0, 17, exVisit, fun _ => 0⟩ lineReg lineHeap lineCall f ∧
    (coef f).getD 0 0 = 2 ∧ basePredict { lineReg with fitted := some f } false [[6]] = .ok [[17]] := by
  set X := joined [['a']] ['y'] [[4], [4], [2], [2]] [14, 12, 10, 8] with hX
  set x := learnArgs lineReg.params [(['a'], .cont), (['y'], .cont)] (some [['y']]) with hx
  have hwf : lineFrame.WF := by unfold Frame.WF; decide +kernel
  have hv : X.values = lineFrame := rfl
  have hnd : X.cols.Nodup := by decide
  have hns : NoSuffix (lineCall.cols ++ [targetName lineCall.yname]) := noSuffix_of_letters (by decide)
  obtain ⟨g0, hg0, harch0, hscore0⟩ := line_learn
  obtain ⟨s, t, h1, h2, h3, -, hok⟩ := (fromPandas_total (goTo lineTrue) (fun _ => 0) 17 exVisit X x (fun es => List.reverse_perm es) hnd
    (hv ▸ hwf) (by intro l hl; cases hl; decide)).2.2.2 (by intro l hl; cases hl; decide) (by decide)
    ⟨(by intro l hl; cases hl), (by intro l hl; cases hl; decide), (by intro l hl; cases hl)⟩
  have hs : s = some [(0, .cont), (1, .cont)] := by
    have := locateSchema_of_named hnd h1
    have h' : locateSchema X.cols x.schema = .ok (some [(0, .cont), (1, .cont)]) := by rfl
    rw [h'] at this
    exact (Except.ok.inj this).symm
  have hname : ∀ t', TabuNamed X.cols x.tabu t' → t' = ⟨none, some [1], none⟩ := by
    intro t' ht'
    have := Notears.translate_of_named hnd ht'
    have h' : Notears.translate X.cols x.tabu = .ok ⟨none, some [1], none⟩ := by rfl
    rw [h'] at this
    exact (Except.ok.inj this).symm
  have ht := hname t h3
  subst hs ht
  obtain ⟨nm, g, hg, -, -, harch, henc, hparams, -⟩ := hok g0 hg0
  have hfit : Fits ⟨goTo lineTrue, fun _ => 0, 17, exVisit, fun _ => 0⟩ lineReg lineHeap lineCall
      ⟨[], [], none, lineCall.cols, ['y'], g, true⟩ := by
    rw [fits_iff]
    unfold pureFit
    rw [if_neg (by decide)]
    change (match fromPandas (goTo lineTrue) (fun _ => 0) 17 exVisit X x with
      | .error e => (.error e : Except Err Fit)
      | .ok g => .ok _) = _
    rw [hg]
    rfl
  have hw : lineCall.WF lineReg lineHeap := by
    refine ⟨by decide, by decide, by decide, ?_⟩
    intro l hl
    cases hl
  have key : ∀ ε : ℝ, 0 < ε → |(coef ⟨[], [], none, lineCall.cols, ['y'], g, true⟩).getD 0 0 - 2| < ε ∧
      ∃ p : ℝ, basePredict { lineReg with fitted := some ⟨[], [], none, lineCall.cols, ['y'], g, true⟩ } false [[6]] = .ok [[p]] ∧
        |p - 17| ≤ ε * 4 := by
    intro ε hε
    obtain ⟨δ, hδ, hrec⟩ := fits_recovers (d := 1) line_acyclic hε
    obtain ⟨m0, m1⟩ := line_mean
    have hpen : penalty 2 lineReg.params.alpha lineReg.params.beta lineWeights = 0 := by simp [penalty, lineReg]
    obtain ⟨c1, c2⟩ := hrec _ lineReg lineHeap lineCall _ 1 (fun es => List.reverse_perm es) hw hfit rfl (by intro r hr; cases hr) hns
      (by
        change ∀ q ∈ [((['a'], .cont) : Str × Alias)], q.2 = .cont
        decide) rfl rfl rfl one_pos (fun j hj k hk => (line_errors j hj k hk).trans (by linarith)) (goTo_respects _) (by decide) (le_refl _)
      (le_refl _) (hpen.le.trans (by linarith)) (by
        intro t' ht'
        rw [hname t' ht']
        intro k rho alpha start _ _ _
        have harch' : g.arch = archOf lineArgs' 2 := harch.trans harch0
        simp only [harch']
        exact le_of_eq (congrArg _ (line_goTo k _ _ start))) (by
        unfold Learned.score at hscore0 ⊢
        rw [harch, henc, hparams, hscore0]
        exact hδ.le)
    have hw01 : lineWeights 0 1 = 2 := if_pos ⟨rfl, rfl⟩
    refine ⟨?_, ?_⟩
    · have := (c1 rfl (Or.inl (le_refl _)) 0 (by norm_num)).1
      rwa [hw01] at this
    · obtain ⟨ys, hys, hall⟩ := c2 false [[6]] (by decide)
      cases hall with
      | cons hr hrest =>
        cases hrest
        obtain ⟨p, rfl, hp⟩ := hr
        refine ⟨p, hys, ?_⟩
        have hint : (lineCall.data lineHeap).intercept lineWeights 1 = 5 := by
          rw [line_data]
          have hcols : lineFrame.cols = 2 := rfl
          unfold Frame.intercept
          rw [hcols, Finset.sum_range_succ, Finset.sum_range_one, m0, m1, hw01]
          norm_num [lineWeights]
        have h6 : realRow [6] 0 = 6 := by norm_num [realRow]
        have hm : (lineCall.data lineHeap).mean 0 = 3 := m0
        rw [hint, Finset.sum_range_one, Finset.sum_range_one, hw01, h6, hm, Real.sqrt_one] at hp
        norm_num [lineReg] at hp
        exact hp
  refine ⟨_, hfit, ?_, ?_⟩
  · by_contra hne
    have := (key _ (abs_pos.2 (sub_ne_zero.2 hne))).1
    exact lt_irrefl _ this
  · obtain ⟨p, hp, -⟩ := (key 1 one_pos).2
    rw [hp]
    by_contra hne
    have hne' : p ≠ 17 := fun h => hne (by rw [h])
    obtain ⟨p', hp', hle⟩ := (key (|p - 17| / 8) (by have := abs_pos.2 (sub_ne_zero.2 hne'); linarith)).2
    rw [hp] at hp'
    simp only [Except.ok.injEq, List.cons.injEq, and_true] at hp'
    subst hp'
    have := abs_pos.2 (sub_ne_zero.2 hne')
    linarith

end Verif.Sklearn
