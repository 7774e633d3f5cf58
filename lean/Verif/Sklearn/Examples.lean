import Verif.Sklearn.PropsLinear
import Verif.Pytorch.LearnExamples

/-!
# Concrete cases: the hypotheses of the theorems on estimators are met
-/

namespace Verif.Sklearn

open Verif.Str Verif.Pytorch
open Verif.Notears (Tabu Minimizer RespectsBounds Permitted InBox)

/-- For all data that passes the checks there is an optimiser within the bounds that ends with a single weight `q`, from column `i` to
column `j`. -/
theorem fromNumpy_single {X : Frame} {x : Args ℕ} {p : Prep} (hp : prepareChecked X x.schema x.tabu = .ok p) (hwf : X.WF)
    (hsd : SchemaDict x.schema) (hlin : (hiddenUnits x.hidden).headD 0 = 0) (hr : lossRaises p.encs = false) (hit : 0 < x.maxIter)
    {i j : ℕ} (hi : i < p.data.cols) (hj : j < p.data.cols) (hperm : Permitted p.tabu i j)
    (hown : ∀ e ∈ p.encs, i ∈ e.cols → j ∉ e.cols) (q : ℝ) (hq : q ≠ 0) (hthr : ∀ t, x.wThreshold = some t → t ≤ |q|)
    (init : ℕ → ℝ) (fuel : ℕ) :
    ∃ w g, fromNumpy (goTo w) init (fuel + 1) X x = .ok g ∧ g.encs = p.encs ∧ g.arch = archOf x p.data.cols ∧
      ∃ d ∈ g.edges, d.src = i ∧ d.dst = j := by
  set a := archOf x p.data.cols with ha
  have had : a.d = p.data.cols := rfl
  have hdims : a.dims = [a.d, 1] := linear_dims hlin
  have hdl : a.dims.length ≤ 2 := by rw [hdims]; simp
  have hm1 : a.m1 = 1 := a.m1_linear hdl
  have hsz : a.d * a.d ≤ a.sizes.sum := by
    unfold Arch.sizes
    rw [hm1]; simp
  set P := a.pos j 0 i with hP
  have hPval : P = j * a.d + i := by rw [hP]; unfold Arch.pos; rw [hm1]; simp
  have hPlt : P < a.d * a.d := by
    rw [hPval]
    have hi' : i < a.d := hi
    have hj' : j < a.d := hj
    nlinarith
  set w : List ℝ := (List.range a.sizes.sum).map fun k => if k = P then q else 0 with hw
  have hget : ∀ k : ℕ, w.getD k 0 = if k = P then q else 0 := by
    intro k
    rw [hw, List.getD_eq_getElem?_getD, List.getElem?_map]
    by_cases hk : k < a.sizes.sum
    · rw [List.getElem?_range hk]; rfl
    · rw [List.getElem?_eq_none (by simpa using hk), if_neg (by omega)]; rfl
  have hlay : Layout p.encs X.cols a.d := prepare_isLayout hwf hsd hp
  have hscore : hFunc a p.encs (a.net w) = 0 := by
    rw [(hFunc_zero_iff hlay w).2]
    have hedge : ∀ u v, WeightEdge a w p.encs u v → ∃ e ∈ p.encs, ∃ f ∈ p.encs, e.idx = u ∧ f.idx = v ∧ i ∈ e.cols ∧ j ∈ f.cols := by
      rintro u v ⟨e, he, f, hf, rfl, rfl, i', hi', j', hj', h, hh, hne⟩
      have h1 := hlay.col_lt he hi'
      have h2 := hlay.col_lt hf hj'
      rw [hget] at hne
      have hPe : a.pos j' h i' = P := by
        by_contra hc; rw [if_neg hc] at hne; exact hne rfl
      rw [hm1] at hh
      obtain rfl : h = 0 := by omega
      rw [hPval] at hPe
      unfold Arch.pos at hPe
      rw [hm1] at hPe
      simp only [mul_one, add_zero] at hPe
      have hii : i' = i := by
        have m1 : (j' * a.d + i') % a.d = (j * a.d + i) % a.d := by rw [hPe]
        rwa [Nat.mul_add_mod', Nat.mul_add_mod', Nat.mod_eq_of_lt h1, Nat.mod_eq_of_lt (show i < a.d from hi)] at m1
      have hjj : j' = j := by
        rw [hii] at hPe
        have : j' * a.d = j * a.d := by omega
        exact Nat.eq_of_mul_eq_mul_right (by omega) this
      rw [← hii, ← hjj]
      exact ⟨e, he, f, hf, rfl, rfl, hi', hj'⟩
    intro u hu
    have key : ∀ u v, Relation.TransGen (WeightEdge a w p.encs) u v →
        ∃ e ∈ p.encs, ∃ f ∈ p.encs, e.idx = u ∧ f.idx = v ∧ i ∈ e.cols ∧ j ∈ f.cols := by
      intro u v huv
      induction huv with
      | single h => exact hedge _ _ h
      | tail _ h ih =>
        obtain ⟨e, he, _, _, q1, _, q3, _⟩ := ih
        obtain ⟨_, _, f, hf, _, r2, _, r4⟩ := hedge _ _ h
        exact ⟨e, he, f, hf, q1, r2, q3, r4⟩
    obtain ⟨e, he, f, hf, q1, q2, q3, q4⟩ := key u u hu
    have hef : e = f := by
      have hnd := hlay.idx.nodup_iff.2 List.nodup_range
      exact List.inj_on_of_nodup_map hnd he hf (q1.trans q2.symm)
    rw [← hef] at q4
    exact hown e he q3 q4
  have hbox : InBox (boundsOf a p.tabu) w := by
    have hlen : w.length = a.sizes.sum := by rw [hw]; simp
    obtain ⟨hl, -, hfree⟩ := bounds_only_excluded a p.tabu
    unfold InBox
    rw [List.forall₂_iff_get]
    refine ⟨by rw [hl, hlen], ?_⟩
    intro k h1 h2
    rw [List.get_eq_getElem, List.get_eq_getElem]
    have hv : w[k]'h2 = if k = P then q else 0 := by
      have := hget k
      rw [List.getD_eq_getElem?_getD, List.getElem?_eq_getElem h2] at this
      exact this
    by_cases hk : k < a.d * a.d
    · have hdpos : 0 < a.d := by
        rcases Nat.eq_zero_or_pos a.d with h0 | h0
        · rw [h0] at hk; simp at hk
        · exact h0
      have hb := boundsOf_get a p.tabu (i := k % a.d) (j := k / a.d) (h := 0) (Nat.mod_lt _ hdpos) (Nat.div_lt_of_lt_mul hk) (by rw [hm1]; omega)
      have hpos : a.pos (k / a.d) 0 (k % a.d) = k := by
        unfold Arch.pos
        rw [hm1, mul_one, add_zero]
        exact Nat.div_add_mod' k a.d
      rw [hpos, List.getElem?_eq_getElem h1, Option.some.injEq] at hb
      rw [hb, hv]
      by_cases hkP : k = P
      · have hi' : k % a.d = i := by rw [hkP, hPval, Nat.mul_add_mod', Nat.mod_eq_of_lt (show i < a.d from hi)]
        have hj' : k / a.d = j := by
          rw [hkP, hPval, Nat.mul_comm, Nat.mul_add_div hdpos, Nat.div_eq_of_lt (show i < a.d from hi)]; rfl
        rw [hi', hj', Notears.bound_free hperm]
        simp
      · rw [if_neg hkP]
        unfold Notears.bound
        split_ifs <;> simp
    · have hb := hfree k (by rw [hm1, mul_one]; omega) (by rw [← hlen]; exact h2)
      rw [List.getElem?_eq_getElem h1, Option.some.injEq] at hb
      rw [hb]
      simp
  have hmin : ∀ k f g w', goTo w k f g w' (boundsOf a p.tabu) = w := by
    intro k f g w'; unfold goTo; rw [if_pos hbox]
  obtain ⟨m, hm⟩ : ∃ m, x.maxIter = m + 1 := ⟨x.maxIter - 1, by omega⟩
  obtain ⟨s, hs, hs1, hs2, hs3⟩ := fit_first (P := torchProblem a p.encs (p.data.rows.map realRow) x.lasso x.ridge)
    (w := initParams a init) (maxIter := m) (fuel := fuel) hmin (by rfl) (by rw [hscore]; positivity)
  rw [← hm] at hs
  have hvalid : a.valid = true := by
    unfold Arch.valid Arch.layerDims
    rw [hdims]; rfl
  refine ⟨w, _, fromNumpy_eq hp hvalid hr hs, rfl, rfl, ?_⟩
  have hadj : adjacency a (a.net w) (p.data.rows.map realRow) i j = |q| := by
    unfold adjacency
    rw [if_pos hdl, a.net_weight _ (by rw [hm1, mul_one, ← hPval]; exact hPlt), hget, if_pos hPval.symm]
  refine ⟨⟨i, j, adjacency a (a.net s.params) (p.data.rows.map realRow) i j, meanEffect a (a.net s.params) (p.data.rows.map realRow) i j,
      "learned"⟩, mem_buildGraph.2 ⟨hi, hj, rfl, ?_, ?_, rfl, rfl⟩, rfl, rfl⟩
  · simp only [hs1]; rw [hadj]; exact abs_ne_zero.2 hq
  · intro t ht
    simp only [hs1]; rw [hadj]; exact hthr t ht

/-- Types and edges in reverse order. -/
def exVisit : Visit := ⟨List.reverse, List.reverse, List.reverse_perm⟩

/-- The same for a data frame: the edge is between the first columns of the variables at positions `i` and `j`. -/
theorem fromPandas_single {X : Table} {x : Args Str} {s : Option (List (ℕ × Alias))} {t : Tabu ℕ} {p : Prep} {order : Visit}
    (horder : ∀ es, (order es).Perm es) (hnd : X.cols.Nodup) (hwf : X.values.WF) (hs : ∀ l, x.schema = some l → (l.map Prod.fst).Nodup)
    (hk1 : SchemaKnown X.cols x.schema) (hk2 : ∀ b ∈ X.numeric, b = true) (hk3 : Notears.TabuKnown X.cols x.tabu)
    (hloc : locateSchema X.cols x.schema = .ok s) (htr : Notears.translate X.cols x.tabu = .ok t)
    (hp : prepareChecked X.values s t = .ok p) (hlin : (hiddenUnits x.hidden).headD 0 = 0) (hr : lossRaises p.encs = false)
    (hit : 0 < x.maxIter) {i j : ℕ} (hi : i < X.cols.length) (hj : j < X.cols.length) (hi' : i < p.data.cols) (hj' : j < p.data.cols)
    (hperm : Permitted p.tabu i j) (hown : ∀ e ∈ p.encs, i ∈ e.cols → j ∉ e.cols) (hthr : ∀ t, x.wThreshold = some t → t ≤ 1)
    (init : ℕ → ℝ) (fuel : ℕ) :
    ∃ w g, fromPandas (goTo w) init (fuel + 1) order X x = .ok g ∧ g.encs = p.encs ∧
      (NoClash X.cols g.encs → ∃ d ∈ g.edges, d.src = X.cols[i] ∧ d.dst = X.cols[j]) := by
  have key : ∀ w, ∃ s' t', _ := fun w => (fromPandas_total (goTo w) init (fuel + 1) order X x horder hnd hwf hs).2.2.2 hk1 hk2 hk3
  have hst : ∀ s' t', SchemaNamed X.cols x.schema s' → Notears.TabuNamed X.cols x.tabu t' → s' = s ∧ t' = t := by
    intro s' t' h1 h2
    refine ⟨?_, ?_⟩
    · have := locateSchema_of_named hnd h1
      rw [hloc] at this; exact (Except.ok.inj this).symm
    · have := Notears.translate_of_named hnd h2
      rw [htr] at this; exact (Except.ok.inj this).symm
  have hsd : SchemaDict s := by
    obtain ⟨s', t', h1, h2, h3, -⟩ := key []
    rw [(hst s' t' h1 h3).1] at h2
    exact h2
  obtain ⟨w, g0, hg0, henc, harch, d0, hd0, hd1, hd2⟩ := fromNumpy_single (x := { x with schema := s, tabu := t }) hp hwf hsd hlin hr hit hi' hj' hperm
    hown 1 one_ne_zero (by intro t ht; rw [abs_one]; exact hthr t ht) init fuel
  obtain ⟨s', t', h1, h2, h3, -, hok⟩ := key w
  obtain ⟨e1, e2⟩ := hst s' t' h1 h3
  subst e1 e2
  obtain ⟨f, g, hg, hnames, -, -, henc', -, -, -, -, -, -, hedges⟩ := hok g0 hg0
  refine ⟨w, g, hg, henc'.trans henc, ?_⟩
  intro hnc
  rw [henc'] at hnc
  have hlay := (fromNumpy_layout hwf h2 hg0).1
  have hname : ∀ k (hk : k < X.cols.length), f k = X.cols[k] := by
    intro k hk
    obtain ⟨u, hu, hu'⟩ := hlay.var (u := k) hk
    obtain ⟨v, hv, hfv⟩ := hnames u hu 0 k (by rw [← List.head?_eq_getElem?, hlay.head u hu, hu'])
    rw [hu', List.getElem?_eq_getElem hk] at hv
    rw [hfv, Option.some.inj hv]; rfl
  refine ⟨⟨f d0.src, f d0.dst, d0.weight, d0.meanEffect, "learned"⟩, ?_, ?_, ?_⟩
  · exact (hedges hnc).1.mem_iff.2 (List.mem_map_of_mem hd0)
  · simp only [hd1, hname i hi]
  · simp only [hd2, hname j hj]

/-- Names without digits are no name followed by a number. -/
theorem noSuffix_of_letters {names : List Str} (h : ∀ v ∈ names, ∀ ch ∈ v, ch.isDigit = false) : NoSuffix names := by
  intro v hv m hm hmem
  have hne := natStr_ne_nil m
  obtain ⟨ch, hch⟩ := List.exists_mem_of_ne_nil _ hne
  have h1 := h _ hmem ch (by unfold columnName; rw [if_neg (by omega)]; exact List.mem_append_right _ hch)
  rw [natStr_digit hch] at h1
  cases h1

/-! ### A regressor -/

/-- A dictionary of types, a table with four rows, a list of excluded parents and a target. -/
def exHeap : Heap :=
  ⟨[[['b']]], [[(['b'], .poiss), (['a'], .cont)]], [[[1, 0], [2, 1], [3, 5], [4, 2]]], [[1, 3, 2, 5]]⟩

/-- A regressor for `exHeap`. -/
noncomputable def exReg (dag : Bool) : Est := ⟨{ schema := some 0, tabuParents := some 0, enforceDag := dag }, some .cont, none⟩

def exCall : Call := ⟨[['a'], ['b']], 0, 0, some ['y']⟩

theorem exHeap_rows : (joined [['a'], ['b']] ['y'] [[1, 0], [2, 1], [3, 5], [4, 2]] [1, 3, 2, 5]).values =
    ⟨3, [[1, 0, 1], [2, 1, 3], [3, 5, 2], [4, 2, 5]]⟩ := rfl

/-- The hypotheses of `fit_no_children`, `fit_enforce_dag`, `regFit_history`, `fit_importances` and `fits_linear` are met: an optimiser
within its bounds, with or without `enforce_dag`, gives a fit with the edge from `a` to the target `y`. -/
theorem reg_example (dag : Bool) : ∃ ext f, RespectsBounds ext.minimize ∧ (∀ es, (ext.order es).Perm es) ∧ exCall.WF (exReg dag) exHeap ∧
    Fits ext (exReg dag) exHeap exCall f ∧ (dag = false → ∃ d ∈ f.graph.edges, d.src = ['a'] ∧ d.dst = ['y']) ∧
    NoSuffix (exCall.cols ++ [targetName exCall.yname]) ∧ NoClash (exCall.cols ++ [f.target]) f.graph.encs ∧
    (∀ r, (exReg dag).params.schema = some r → targetName exCall.yname ∉ (exHeap.schemas.getD r []).map Prod.fst) ∧
    (∀ q ∈ usedSchema (exReg dag) exHeap exCall.cols, q.2 = .cont ∨ q.2 = .bin ∨ q.2 = .poiss) ∧
    (hiddenUnits (exReg dag).params.hidden).headD 0 = 0 ∧ (exReg dag).params.threshold ≤ 0 ∧
    KnownRow exCall.cols (usedSchema (exReg dag) exHeap exCall.cols) (exHeap.tables.getD exCall.x []) [7, 3] := by
  set X := joined [['a'], ['b']] ['y'] [[1, 0], [2, 1], [3, 5], [4, 2]] [1, 3, 2, 5] with hX
  set x := learnArgs (exReg dag).params [(['b'], .poiss), (['a'], .cont), (['y'], .cont)] (some [['b'], ['y']]) with hx
  have hnd : X.cols.Nodup := by decide
  have hwf : X.values.WF := by
    intro r hr
    rw [hX, exHeap_rows] at hr
    simp only [List.mem_cons, List.not_mem_nil, or_false] at hr
    rcases hr with rfl | rfl | rfl | rfl <;> rfl
  have hns : NoSuffix (exCall.cols ++ [targetName exCall.yname]) := noSuffix_of_letters (by decide)
  obtain ⟨p, hp, hcols, henc, hpar, hted, hch⟩ : ∃ p, prepareChecked X.values (some [(1, .poiss), (0, .cont), (2, .cont)]) ⟨none, some [1, 2], none⟩ = .ok p ∧
      p.data.cols = 3 ∧ p.encs = [.poiss 1, .cont 0, .cont 2] ∧ p.tabu.parents = some [1, 2] ∧ p.tabu.edges = none ∧ p.tabu.children = none := by
    refine ⟨_, rfl, ?_, ?_, ?_, ?_, ?_⟩ <;> rfl
  obtain ⟨w, g, hg, hge, hgd⟩ := fromPandas_single (X := X) (x := x) (order := exVisit) (i := 0) (j := 2)
    (fun es => List.reverse_perm es) hnd hwf (by intro l hl; cases hl; decide) (by intro l hl; cases hl; decide) (by decide)
    ⟨(by intro l hl; cases hl), (by intro l hl; cases hl; decide), (by intro l hl; cases hl)⟩ (by rfl) (by rfl) hp rfl
    (by rw [henc]; rfl) (show 0 < 100 by decide) (by decide) (by decide) (by rw [hcols]; decide) (by rw [hcols]; decide)
    ⟨by decide, (by intro l hl; rw [hted] at hl; cases hl), (by intro l hl; rw [hpar] at hl; cases hl; decide),
      (by intro l hl; rw [hch] at hl; cases hl)⟩
    (by rw [henc]; decide) (by intro t ht; cases ht; norm_num [exReg]) (fun _ => 0) 16
  refine ⟨⟨goTo w, fun _ => 0, 17, exVisit, fun _ => 0⟩, ⟨[], [], none, exCall.cols, ['y'],
      if dag then { g with edges := tillDag g.edges.length g.edges } else g, true⟩, goTo_respects _, fun es => List.reverse_perm es, ?_, ?_, ?_, hns,
      hns.noClash _, ?_, ?_, rfl, le_refl _, ?_⟩
  · refine ⟨by decide, by decide, by decide, ?_⟩
    intro l hl
    cases hl
    decide
  · rw [fits_iff]
    unfold pureFit
    rw [if_neg (by decide)]
    change (match fromPandas (goTo w) (fun _ => 0) 17 exVisit X x with
      | .error e => (.error e : Except Err Fit)
      | .ok g => .ok _) = _
    rw [hg]
    rfl
  · rintro rfl
    exact hgd (hns.noClash _)
  · intro r hr
    cases hr
    decide
  · change ∀ q ∈ [((['b'], .poiss) : Str × Alias), (['a'], .cont)], q.2 = .cont ∨ q.2 = .bin ∨ q.2 = .poiss
    decide
  · intro i v hi
    have hs : usedSchema (exReg dag) exHeap exCall.cols = [(['b'], .poiss), (['a'], .cont)] := rfl
    rw [hs]
    have hi2 : i < 2 := (List.getElem?_eq_some_iff.1 hi).1
    interval_cases i
    · cases hi
      exact ⟨fun h => absurd h (by decide), fun h => absurd h (by decide)⟩
    · cases hi
      refine ⟨fun _ => ?_, fun h => absurd h (by decide)⟩
      norm_num

/-! ### A classifier -/

/-- A classifier for `exHeap`. -/
noncomputable def exClf : Clf ℕ := ⟨⟨{ schema := some 0 }, none, none⟩, []⟩

/-- The hypotheses of `clf_predictions_partial`, `fit_class_rows` and `fit_class_intercepts` are met: three classes, a fit with the edge from `a`
to the first column of the target. -/
theorem clf_example : ∃ (ext : Ext) (h' : Heap) (k' : Clf ℕ), RespectsBounds ext.minimize ∧ (∀ es, (ext.order es).Perm es) ∧
    clfFit ext exClf exHeap [['a'], ['b']] 0 none [5, 9, 7, 5] = (h', k', none) ∧ k'.classes = [5, 7, 9] ∧
    (∃ f, k'.est.fitted = some f ∧ ∃ d ∈ f.graph.edges, d.src = ['a'] ∧ d.dst = defaultTarget) ∧
    WellFormed [['a'], ['b']] none (exHeap.tables.getD 0 []) (exClf.est.params.schema.map fun r => exHeap.schemas.getD r []) ∧
    (∀ r, exClf.est.params.schema = some r → targetName none ∉ (exHeap.schemas.getD r []).map Prod.fst) ∧
    NoSuffix ([['a'], ['b']] ++ [targetName none]) ∧ (∀ q ∈ usedSchema exClf.est exHeap [['a'], ['b']], q.2 ≠ .ord ∧ q.2 ≠ .cat) ∧
    TypeFits exClf.est.targetType k'.classes.length ∧
    KnownRow [['a'], ['b']] (usedSchema exClf.est exHeap [['a'], ['b']]) (exHeap.tables.getD 0 []) [7, 3] := by
  set X := joined [['a'], ['b']] defaultTarget [[1, 0], [2, 1], [3, 5], [4, 2]] [0, 2, 1, 0] with hX
  set x := learnArgs exClf.est.params [(['b'], .poiss), (['a'], .cont), (defaultTarget, .cat)] (some [defaultTarget]) with hx
  have hnd : X.cols.Nodup := by decide
  have hwf : X.values.WF := by
    intro r hr
    have hr' : r ∈ ([[1, 0, 0], [2, 1, 2], [3, 5, 1], [4, 2, 0]] : List (List ℚ)) := hr
    simp only [List.mem_cons, List.not_mem_nil, or_false] at hr'
    rcases hr' with rfl | rfl | rfl | rfl <;> rfl
  have hns : NoSuffix ([['a'], ['b']] ++ [targetName none]) := noSuffix_of_letters (by decide)
  obtain ⟨p, hp, hcols, henc, hpar, hch⟩ : ∃ p, prepareChecked X.values (some [(1, .poiss), (0, .cont), (2, .cat)]) ⟨none, some [2], none⟩ = .ok p ∧
      p.data.cols = 5 ∧ p.encs = [.poiss 1, .cont 0, .cat 2 [2, 3, 4] [0, 1, 2]] ∧ p.tabu.parents = some [2, 3, 4] ∧ p.tabu.children = none := by
    have h : (match prepareChecked X.values (some [(1, .poiss), (0, .cont), (2, .cat)]) ⟨none, some [2], none⟩ with
        | .ok p => decide (p.data.cols = 5 ∧ p.encs = [.poiss 1, .cont 0, .cat 2 [2, 3, 4] [0, 1, 2]] ∧ p.tabu.parents = some [2, 3, 4] ∧
            p.tabu.children = none)
        | .error _ => false) = true := by decide +kernel
    cases hp : prepareChecked X.values (some [(1, .poiss), (0, .cont), (2, .cat)]) ⟨none, some [2], none⟩ with
    | ok p => rw [hp] at h; exact ⟨p, rfl, of_decide_eq_true h⟩
    | error e => rw [hp] at h; simp at h
  have hted : ∀ te, p.tabu.edges = some te → (0, 2) ∉ te := by
    have h : (match prepareChecked X.values (some [(1, .poiss), (0, .cont), (2, .cat)]) ⟨none, some [2], none⟩ with
        | .ok p => (match p.tabu.edges with | some te => decide ((0, 2) ∉ te) | none => true)
        | .error _ => false) = true := by decide +kernel
    intro te hte
    rw [hp] at h
    simp only [hte] at h
    exact of_decide_eq_true h
  obtain ⟨w, g, hg, hge, hgd⟩ := fromPandas_single (X := X) (x := x) (order := exVisit) (i := 0) (j := 2)
    (fun es => List.reverse_perm es) hnd hwf (by intro l hl; cases hl; decide) (by intro l hl; cases hl; decide) (by decide)
    ⟨(by intro l hl; cases hl), (by intro l hl; cases hl; decide), (by intro l hl; cases hl)⟩ (by rfl) (by rfl) hp rfl
    (by rw [henc]; rfl) (show 0 < 100 by decide) (by decide) (by decide) (by rw [hcols]; decide) (by rw [hcols]; decide)
    ⟨by decide, hted, (by intro l hl; rw [hpar] at hl; cases hl; decide), (by intro l hl; rw [hch] at hl; cases hl)⟩
    (by rw [henc]; decide) (by intro t ht; cases ht; norm_num [exClf]) (fun _ => 0) 16
  set ext : Ext := ⟨goTo w, fun _ => 0, 17, exVisit, fun _ => 0⟩ with hext
  have hcl : labelClasses ([5, 9, 7, 5] : List ℕ) = [5, 7, 9] := by decide
  have hfit : Fits ext { exClf.est with targetType := some .cat } { exHeap with series := exHeap.series ++ [[0, 2, 1, 0]] }
      ⟨[['a'], ['b']], 0, 1, none⟩ ⟨[], [], none, [['a'], ['b']], defaultTarget, g, true⟩ := by
    rw [fits_iff]
    unfold pureFit
    rw [if_neg (by decide)]
    change (match fromPandas (goTo w) (fun _ => 0) 17 exVisit X x with
      | .error e => (.error e : Except Err Fit)
      | .ok g => .ok _) = _
    rw [hg]
    rfl
  have hclf : clfFit ext exClf exHeap [['a'], ['b']] 0 none [5, 9, 7, 5] =
      ((baseFit ext { exClf.est with targetType := some .cat } { exHeap with series := exHeap.series ++ [[0, 2, 1, 0]] } ⟨[['a'], ['b']], 0, 1, none⟩).1,
        ⟨{ exClf.est with targetType := some .cat, fitted := some ⟨[], [], none, [['a'], ['b']], defaultTarget, g, true⟩ }, [5, 7, 9]⟩, none) := by
    unfold clfFit
    simp only [hcl]
    rw [if_neg (by simp), if_neg (by simp)]
    unfold Fits at hfit
    have hcode : (([5, 9, 7, 5] : List ℕ).map fun v => ((([5, 7, 9] : List ℕ).idxOf v : ℕ) : ℚ)) = [0, 2, 1, 0] := by decide +kernel
    rw [hcode]
    change (_, (⟨(baseFit ext { exClf.est with targetType := some .cat } { exHeap with series := exHeap.series ++ [[0, 2, 1, 0]] }
      ⟨[['a'], ['b']], 0, 1, none⟩).2.1, [5, 7, 9]⟩ : Clf ℕ), (baseFit ext { exClf.est with targetType := some .cat } { exHeap with series := exHeap.series ++ [[0, 2, 1, 0]] }
      ⟨[['a'], ['b']], 0, 1, none⟩).2.2) = _
    rw [hfit]
    rfl
  refine ⟨ext, _, _, goTo_respects _, fun es => List.reverse_perm es, hclf, rfl, ⟨_, rfl, hgd (hns.noClash _)⟩, ?_, ?_, hns, ?_, Or.inl rfl, ?_⟩
  · refine ⟨by decide, by decide, by decide, ?_⟩
    intro l hl
    cases hl
    decide
  · intro r hr
    cases hr
    decide
  · change ∀ q ∈ [((['b'], .poiss) : Str × Alias), (['a'], .cont)], q.2 ≠ .ord ∧ q.2 ≠ .cat
    decide
  · intro i v hi
    have hs : usedSchema exClf.est exHeap [['a'], ['b']] = [(['b'], .poiss), (['a'], .cont)] := rfl
    rw [hs]
    have hi2 : i < 2 := (List.getElem?_eq_some_iff.1 hi).1
    interval_cases i
    · cases hi
      exact ⟨fun h => absurd h (by decide), fun h => absurd h (by decide)⟩
    · cases hi
      refine ⟨fun _ => ?_, fun h => absurd h (by decide)⟩
      norm_num

/-- A classifier with the type `bin` from an earlier fit. -/
noncomputable def exBin : Clf ℕ := ⟨⟨{ schema := some 0 }, some .bin, none⟩, [5, 7]⟩

/-- The hypotheses of `clf_refit_binary` are met. -/
theorem clf_refit_example : ∃ (ext : Ext) (h' : Heap) (k' : Clf ℕ), (∀ es, (ext.order es).Perm es) ∧
    clfFit ext exBin exHeap [['a'], ['b']] 0 none [5, 9, 7, 5] = (h', k', none) ∧ k'.classes = [5, 7, 9] ∧
    exBin.est.targetType = some .bin ∧
    WellFormed [['a'], ['b']] none (exHeap.tables.getD 0 []) (exBin.est.params.schema.map fun r => exHeap.schemas.getD r []) ∧
    (∀ r, exBin.est.params.schema = some r → targetName none ∉ (exHeap.schemas.getD r []).map Prod.fst) ∧
    NoSuffix ([['a'], ['b']] ++ [targetName none]) := by
  set X := joined [['a'], ['b']] defaultTarget [[1, 0], [2, 1], [3, 5], [4, 2]] [0, 2, 1, 0] with hX
  set x := learnArgs exBin.est.params [(['b'], .poiss), (['a'], .cont), (defaultTarget, .bin)] (some [defaultTarget]) with hx
  have hnd : X.cols.Nodup := by decide
  have hwf : X.values.WF := by
    intro r hr
    have hr' : r ∈ ([[1, 0, 0], [2, 1, 2], [3, 5, 1], [4, 2, 0]] : List (List ℚ)) := hr
    simp only [List.mem_cons, List.not_mem_nil, or_false] at hr'
    rcases hr' with rfl | rfl | rfl | rfl <;> rfl
  have hns : NoSuffix ([['a'], ['b']] ++ [targetName none]) := noSuffix_of_letters (by decide)
  obtain ⟨p, hp, hcols, henc, hpar, hch⟩ : ∃ p, prepareChecked X.values (some [(1, .poiss), (0, .cont), (2, .bin)]) ⟨none, some [2], none⟩ = .ok p ∧
      p.data.cols = 3 ∧ p.encs = [.poiss 1, .cont 0, .bin 2] ∧ p.tabu.parents = some [2] ∧ p.tabu.children = none := by
    have h : (match prepareChecked X.values (some [(1, .poiss), (0, .cont), (2, .bin)]) ⟨none, some [2], none⟩ with
        | .ok p => decide (p.data.cols = 3 ∧ p.encs = [.poiss 1, .cont 0, .bin 2] ∧ p.tabu.parents = some [2] ∧
            p.tabu.children = none)
        | .error _ => false) = true := by decide +kernel
    cases hp : prepareChecked X.values (some [(1, .poiss), (0, .cont), (2, .bin)]) ⟨none, some [2], none⟩ with
    | ok p => rw [hp] at h; exact ⟨p, rfl, of_decide_eq_true h⟩
    | error e => rw [hp] at h; simp at h
  have hted : ∀ te, p.tabu.edges = some te → (0, 2) ∉ te := by
    have h : (match prepareChecked X.values (some [(1, .poiss), (0, .cont), (2, .bin)]) ⟨none, some [2], none⟩ with
        | .ok p => (match p.tabu.edges with | some te => decide ((0, 2) ∉ te) | none => true)
        | .error _ => false) = true := by decide +kernel
    intro te hte
    rw [hp] at h
    simp only [hte] at h
    exact of_decide_eq_true h
  obtain ⟨w, g, hg, hge, hgd⟩ := fromPandas_single (X := X) (x := x) (order := exVisit) (i := 0) (j := 2)
    (fun es => List.reverse_perm es) hnd hwf (by intro l hl; cases hl; decide) (by intro l hl; cases hl; decide) (by decide)
    ⟨(by intro l hl; cases hl), (by intro l hl; cases hl; decide), (by intro l hl; cases hl)⟩ (by rfl) (by rfl) hp rfl
    (by rw [henc]; rfl) (show 0 < 100 by decide) (by decide) (by decide) (by rw [hcols]; decide) (by rw [hcols]; decide)
    ⟨by decide, hted, (by intro l hl; rw [hpar] at hl; cases hl; decide), (by intro l hl; rw [hch] at hl; cases hl)⟩
    (by rw [henc]; decide) (by intro t ht; cases ht; norm_num [exBin]) (fun _ => 0) 16
  set ext : Ext := ⟨goTo w, fun _ => 0, 17, exVisit, fun _ => 0⟩ with hext
  have hcl : labelClasses ([5, 9, 7, 5] : List ℕ) = [5, 7, 9] := by decide
  have hfit : Fits ext { exBin.est with targetType := some .bin } { exHeap with series := exHeap.series ++ [[0, 2, 1, 0]] }
      ⟨[['a'], ['b']], 0, 1, none⟩ ⟨[], [], none, [['a'], ['b']], defaultTarget, g, true⟩ := by
    rw [fits_iff]
    unfold pureFit
    rw [if_neg (by decide)]
    change (match fromPandas (goTo w) (fun _ => 0) 17 exVisit X x with
      | .error e => (.error e : Except Err Fit)
      | .ok g => .ok _) = _
    rw [hg]
    rfl
  have hclf : clfFit ext exBin exHeap [['a'], ['b']] 0 none [5, 9, 7, 5] =
      ((baseFit ext { exBin.est with targetType := some .bin } { exHeap with series := exHeap.series ++ [[0, 2, 1, 0]] } ⟨[['a'], ['b']], 0, 1, none⟩).1,
        ⟨{ exBin.est with targetType := some .bin, fitted := some ⟨[], [], none, [['a'], ['b']], defaultTarget, g, true⟩ }, [5, 7, 9]⟩, none) := by
    unfold clfFit
    simp only [hcl]
    rw [if_neg (by simp), if_neg (by simp)]
    unfold Fits at hfit
    have hcode : (([5, 9, 7, 5] : List ℕ).map fun v => ((([5, 7, 9] : List ℕ).idxOf v : ℕ) : ℚ)) = [0, 2, 1, 0] := by decide +kernel
    rw [hcode]
    change (_, (⟨(baseFit ext { exBin.est with targetType := some .bin } { exHeap with series := exHeap.series ++ [[0, 2, 1, 0]] }
      ⟨[['a'], ['b']], 0, 1, none⟩).2.1, [5, 7, 9]⟩ : Clf ℕ), (baseFit ext { exBin.est with targetType := some .bin } { exHeap with series := exHeap.series ++ [[0, 2, 1, 0]] }
      ⟨[['a'], ['b']], 0, 1, none⟩).2.2) = _
    rw [hfit]
    rfl
  refine ⟨ext, _, _, fun es => List.reverse_perm es, hclf, rfl, rfl, ?_, ?_, hns⟩
  · refine ⟨by decide, by decide, by decide, ?_⟩
    intro l hl
    cases hl
    decide
  · intro r hr
    cases hr
    decide

end Verif.Sklearn
