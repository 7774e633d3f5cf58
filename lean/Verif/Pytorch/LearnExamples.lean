import Verif.Pytorch.LearnPandas

/-!
# Concrete runs of `from_numpy` of the PyTorch version
-/

namespace Verif.Pytorch

open Verif.Notears (Tabu Minimizer InBox RespectsBounds Permitted Problem Bound)

open Classical in
/-- An optimiser that goes to a fixed point if the bounds allow it. -/
noncomputable def goTo (w0 : List ℝ) : Minimizer ℝ := fun _ _ _ w bnds => if InBox bnds w0 then w0 else w

theorem goTo_respects (w0 : List ℝ) : RespectsBounds (goTo w0) := by
  intro k f g w bnds h
  unfold goTo
  split_ifs with h1
  · exact h1
  · exact h

/-- The first call of the optimiser is the last one if it finds a score below the tolerance. -/
theorem fit_first {P : Problem ℝ} {minimize : Minimizer ℝ} {bnds : List (Bound ℝ)} {w w0 : List ℝ} {maxIter fuel : ℕ} {c : ℝ}
    (hm : ∀ k f g w, minimize k f g w bnds = w0) (hs : P.score w0 = (c : ℝ)) (hc : c ≤ 1 / 10 ^ 8) :
    ∃ s, fit P minimize bnds w (maxIter + 1) (fuel + 1) = some s ∧ s.params = w0 ∧ s.rho = 1 ∧ s.warned = false := by
  have hq : Notears.quarter (⊤ : WithTop ℝ) = ⊤ := rfl
  have h1 : FitGo (10 ^ 16 : ℝ) { fitInit w with hNew := ⊤ } := ⟨by norm_num [fitInit], Or.inr rfl⟩
  have h2 : ¬ FitGo (10 ^ 16 : ℝ) (fitRound P minimize bnds w { fitInit w with hNew := ⊤ }) := by
    rintro ⟨-, h | h⟩
    · change Notears.quarter ⊤ < _ at h
      rw [hq] at h; exact not_top_lt h
    · change P.score (minimize _ _ _ _ _) = ⊤ at h
      rw [hm, hs] at h; exact WithTop.coe_ne_top h
  have h3 : stepLoop P minimize bnds (10 ^ 16) (fitInit w).params (fuel + 1) { fitInit w with hNew := ⊤ } =
      some (fitRound P minimize bnds w { fitInit w with hNew := ⊤ }) := by
    rw [stepLoop_go h1]
    exact stepLoop_stop h2
  unfold fit
  rw [fitLoop]
  unfold dualStep
  rw [h3, Option.map_some]
  simp only
  rw [if_pos]
  · refine ⟨_, rfl, ?_, ?_, rfl⟩
    · change minimize _ _ _ _ _ = w0
      exact hm _ _ _ _
    · simp only [fitRound, fitInit, hq, not_top_lt, if_false]
  · left
    change P.score (minimize _ _ _ _ _) ≤ _
    rw [hm, hs, WithTop.coe_le_coe]
    exact hc

/-- The arguments for `exFrame`: threshold 1/2. -/
noncomputable def exArgs : Args ℕ := { schema := exSchema, tabu := exTabu, wThreshold := some (1 / 2) }

/-- Parameters with one nonzero weight, 3/4 from column 0 to column 3. -/
noncomputable def exParams : List ℝ := (List.range 49).map fun k => if k = 21 then 3 / 4 else 0

/-- The hypotheses of `fromNumpy_edges`, `fromNumpy_collapsed`, `fromNumpy_acyclic` and `fromNumpy_threshold` are met: for `exFrame`, an
optimiser that goes to `exParams` gives exactly the edge from column 0 to column 3, without warning, with the penalty 1. -/
theorem fromNumpy_example : RespectsBounds (goTo exParams) ∧ exFrame.WF ∧ SchemaDict exSchema ∧ TabuBelow exFrame.cols exTabu ∧
    ∃ g, fromNumpy (goTo exParams) (fun _ => 0) 17 exFrame exArgs = .ok g ∧ g.warned = false ∧ g.rho = 1 ∧ g.score = 0 ∧
      (∃ e ∈ g.edges, e.src = 0 ∧ e.dst = 3 ∧ e.weight = 3 / 4) ∧ (∀ e ∈ g.edges, e.src = 0 ∧ e.dst = 3) ∧
      (∀ k, 0 < k → k ≤ exFrame.cols →
        (1 : ℝ) / 10 ^ 8 < exFrame.cols.choose k * k * (1 / 2 : ℝ) ^ (2 * k) / (exFrame.cols : ℝ) ^ k) := by
  have hwf : exFrame.WF := by
    intro r hr; simp only [exFrame, List.mem_cons, List.not_mem_nil, or_false] at hr
    rcases hr with rfl | rfl | rfl | rfl <;> rfl
  have hsd : SchemaDict exSchema := by intro s hs; cases hs; decide
  have hlt : TabuBelow exFrame.cols exTabu := by
    refine ⟨?_, ?_, ?_⟩
    · intro te hte; cases hte; decide
    · intro te hte; cases hte; decide
    · intro te hte; cases hte
  refine ⟨goTo_respects _, hwf, hsd, hlt, ?_⟩
  obtain ⟨p, hp, hcols, henc, hted, hpar, hch⟩ : ∃ p, prepareChecked exFrame exSchema exTabu = .ok p ∧ p.data.cols = 7 ∧
      p.encs.map (fun e => (e.idx, e.cols)) = [(3, [3, 4]), (0, [0]), (1, [1, 5, 6]), (2, [2])] ∧
      p.tabu.edges = some [(0, 1), (3, 4), (4, 3), (0, 5), (0, 6), (1, 5), (1, 6), (5, 1), (5, 6), (6, 1), (6, 5)] ∧
      p.tabu.parents = some [2] ∧ p.tabu.children = none := by
    have h : (match prepareChecked exFrame exSchema exTabu with
        | .ok p => decide (p.data.cols = 7 ∧ p.encs.map (fun e => (e.idx, e.cols)) = [(3, [3, 4]), (0, [0]), (1, [1, 5, 6]), (2, [2])] ∧
            p.tabu.edges = some [(0, 1), (3, 4), (4, 3), (0, 5), (0, 6), (1, 5), (1, 6), (5, 1), (5, 6), (6, 1), (6, 5)] ∧
            p.tabu.parents = some [2] ∧ p.tabu.children = none)
        | .error _ => false) = true := by decide +kernel
    cases hp : prepareChecked exFrame exSchema exTabu with
    | ok p => rw [hp] at h; exact ⟨p, rfl, of_decide_eq_true h⟩
    | error e => rw [hp] at h; simp at h
  set a := archOf exArgs p.data.cols with ha
  have hd7 : a.d = 7 := hcols
  have hdims : a.dims = [a.d, 1] := linear_dims rfl
  have hdl : a.dims.length ≤ 2 := by rw [hdims]; simp
  have hm1 : a.m1 = 1 := a.m1_linear hdl
  have hget : ∀ k : ℕ, exParams.getD k 0 = if k = 21 then 3 / 4 else 0 := by
    intro k
    unfold exParams
    rw [List.getD_eq_getElem?_getD, List.getElem?_map]
    by_cases hk : k < 49
    · rw [List.getElem?_range hk]; rfl
    · rw [List.getElem?_eq_none (by simpa using hk), if_neg (by omega)]; rfl
  have hnw : ∀ i j, i < 7 → j < 7 → (a.net exParams).weight.getD (j * a.d + i) 0 = if i = 0 ∧ j = 3 then 3 / 4 else 0 := by
    intro i j hi hj
    have hpos : j * a.d + i < a.d * a.m1 * a.d := by
      rw [hd7, hm1]; omega
    rw [a.net_weight _ hpos, hget, hd7]
    congr 1
    exact propext (by omega)
  have hlay : Layout p.encs exFrame.cols a.d := prepare_isLayout hwf hsd hp
  have hscore : hFunc a p.encs (a.net exParams) = 0 := by
    rw [(hFunc_zero_iff hlay exParams).2]
    have hedge : ∀ u v, WeightEdge a exParams p.encs u v → u = 0 ∧ v = 3 := by
      rintro u v ⟨e, he, f, hf, rfl, rfl, i, hi, j, hj, h, hh, hne⟩
      have hi7 := hlay.col_lt he hi
      have hj7 := hlay.col_lt hf hj
      rw [hd7] at hi7 hj7
      rw [hm1] at hh
      obtain rfl : h = 0 := by omega
      rw [hget] at hne
      unfold Arch.pos at hne
      rw [hm1, hd7] at hne
      have h21 : (j * 1 + 0) * 7 + i = 21 := by
        by_contra hc; rw [if_neg hc] at hne; exact hne rfl
      have hi0 : i = 0 := by omega
      have hj3 : j = 3 := by omega
      subst hi0 hj3
      have m1 : (e.idx, e.cols) ∈ p.encs.map (fun e => (e.idx, e.cols)) := List.mem_map_of_mem he
      have m2 : (f.idx, f.cols) ∈ p.encs.map (fun e => (e.idx, e.cols)) := List.mem_map_of_mem hf
      rw [henc] at m1 m2
      simp only [List.mem_cons, Prod.mk.injEq, List.not_mem_nil, or_false] at m1 m2
      refine ⟨?_, ?_⟩
      · rcases m1 with ⟨q, r⟩ | ⟨q, r⟩ | ⟨q, r⟩ | ⟨q, r⟩ <;> rw [r] at hi <;> simp at hi <;> exact q
      · rcases m2 with ⟨q, r⟩ | ⟨q, r⟩ | ⟨q, r⟩ | ⟨q, r⟩ <;> rw [r] at hj <;> simp at hj <;> exact q
    intro u hu
    have key : ∀ u v, Relation.TransGen (WeightEdge a exParams p.encs) u v → u = 0 ∧ v = 3 := by
      intro u v huv
      induction huv with
      | single h => exact hedge _ _ h
      | tail _ h ih => exact ⟨ih.1, (hedge _ _ h).2⟩
    obtain ⟨h1, h2⟩ := key u u hu
    omega
  have hbox : InBox (boundsOf a p.tabu) exParams := by
    have hlen : exParams.length = 49 := by simp [exParams]
    obtain ⟨hl, -, -⟩ := bounds_only_excluded a p.tabu
    have hsz : a.sizes.sum = 49 := by
      unfold Arch.sizes Arch.layerDims
      rw [hdims, hm1, hd7]
      simp [ha, archOf, exArgs]
    unfold InBox
    rw [List.forall₂_iff_get]
    refine ⟨by rw [hl, hlen, hsz], ?_⟩
    intro k h1 h2
    rw [List.get_eq_getElem, List.get_eq_getElem]
    have hk : k < 49 := by rw [hlen] at h2; exact h2
    have hi : k % 7 < a.d := by rw [hd7]; omega
    have hj : k / 7 < a.d := by rw [hd7]; omega
    have hb := boundsOf_get a p.tabu (h := 0) hi hj (by rw [hm1]; omega)
    have hpos : a.pos (k / 7) 0 (k % 7) = k := by
      unfold Arch.pos
      rw [hm1, hd7]; omega
    rw [hpos, List.getElem?_eq_getElem h1, Option.some.injEq] at hb
    have hv : exParams[k]'h2 = if k = 21 then 3 / 4 else 0 := by
      have := hget k
      rw [List.getD_eq_getElem?_getD, List.getElem?_eq_getElem h2] at this
      exact this
    rw [hb, hv]
    by_cases h21 : k = 21
    · have hperm : Permitted p.tabu (k % 7) (k / 7) := by
        subst h21
        rw [permitted_iff]
        refine ⟨by decide, ?_, ?_, ?_⟩
        · rintro ⟨l, hl, hm⟩; rw [hted] at hl; cases hl; revert hm; decide
        · rintro ⟨l, hl, hm⟩; rw [hpar] at hl; cases hl; revert hm; decide
        · rintro ⟨l, hl, hm⟩; rw [hch] at hl; cases hl
      rw [Notears.bound_free hperm]
      simp
    · rw [if_neg h21]
      unfold Notears.bound
      split_ifs <;> simp
  have hmin : ∀ k f g w, goTo exParams k f g w (boundsOf a p.tabu) = exParams := by
    intro k f g w; unfold goTo; rw [if_pos hbox]
  obtain ⟨s, hs, hs1, hs2, hs3⟩ := fit_first (P := torchProblem a p.encs (p.data.rows.map realRow) exArgs.lasso exArgs.ridge)
    (w := initParams a fun _ => 0) (maxIter := 99) (fuel := 16) hmin (by rfl) (by rw [hscore]; positivity)
  have hvalid : a.valid = true := by
    unfold Arch.valid Arch.layerDims
    rw [hdims]; rfl
  have hraise : lossRaises p.encs = false := by
    have h : (match prepareChecked exFrame exSchema exTabu with | .ok p => lossRaises p.encs | .error _ => true) = false := by decide +kernel
    rw [hp] at h; exact h
  have hadj : ∀ i j, i < 7 → j < 7 → adjacency a (a.net exParams) (p.data.rows.map realRow) i j = if i = 0 ∧ j = 3 then 3 / 4 else 0 := by
    intro i j hi hj
    unfold adjacency
    rw [if_pos hdl, hnw i j hi hj]
    split_ifs <;> norm_num
  refine ⟨buildGraph exFrame.cols a p.encs (p.data.rows.map realRow) exArgs.wThreshold s.params s.warned s.rho, ?_, hs3, hs2, ?_, ?_, ?_, ?_⟩
  · exact fromNumpy_eq hp hvalid hraise hs
  · change hFunc a p.encs (a.net s.params) = 0
    rw [hs1]; exact hscore
  · refine ⟨⟨0, 3, adjacency a (a.net s.params) (p.data.rows.map realRow) 0 3, meanEffect a (a.net s.params) (p.data.rows.map realRow) 0 3,
      "learned"⟩, mem_buildGraph.2 ⟨?_, ?_, rfl, ?_, ?_, rfl, rfl⟩, rfl, rfl, ?_⟩
    · change 0 < a.d; omega
    · change 3 < a.d; omega
    · simp only [hs1]; rw [hadj 0 3 (by omega) (by omega)]; norm_num
    · intro t ht
      cases ht
      simp only [hs1]; rw [hadj 0 3 (by omega) (by omega)]; norm_num
    · simp only [hs1]; rw [hadj 0 3 (by omega) (by omega)]; norm_num
  · intro e he
    obtain ⟨h1, h2, h3, h4, -⟩ := mem_buildGraph.1 he
    rw [hd7] at h1 h2
    rw [hs1, hadj _ _ h1 h2] at h3
    by_contra hc
    rw [if_neg hc] at h3
    exact h4 h3
  · intro k h0 h4
    change k ≤ 4 at h4
    change (1 : ℝ) / 10 ^ 8 < (Nat.choose 4 k : ℕ) * k * (1 / 2 : ℝ) ^ (2 * k) / ((4 : ℕ) : ℝ) ^ k
    interval_cases k <;> norm_num [Nat.choose]

/-! ### A data frame -/

/-- `exFrame` with names. -/
def exTable : Table := ⟨[['a'], ['b'], ['c'], ['d']], [true, true, true, true], exFrame.rows⟩

/-- The arguments of the example by names. -/
noncomputable def exNamed : Args Verif.Str.Str :=
  { schema := some [(['d'], .cat), (['a'], .cont), (['b'], .cat), (['c'], .poiss)]
    tabu := ⟨some [(['a'], ['b'])], some [['c']], none⟩
    wThreshold := some (1 / 2) }

/-- The hypotheses of `fromPandas_total` and `fromPandas_permitted` are met, and the result has the edge from `a` to the first column of
the categorical variable `d`. -/
theorem fromPandas_example : RespectsBounds (goTo exParams) ∧ exTable.cols.Nodup ∧ exTable.values.WF ∧
    (∀ l, exNamed.schema = some l → (l.map Prod.fst).Nodup) ∧
    ∃ g, fromPandas (goTo exParams) (fun _ => 0) 17 ⟨List.reverse, List.reverse, List.reverse_perm⟩ exTable exNamed = .ok g ∧ NoClash exTable.cols g.encs ∧
      ∃ e ∈ g.edges, e.src = ['a'] ∧ e.dst = ['d'] := by
  obtain ⟨hm, hwf, -, -, g0, hg0, -, -, -, ⟨e0, he0, hsrc, hdst, -⟩, -⟩ := fromNumpy_example
  have hnd : exTable.cols.Nodup := by decide
  have hs : ∀ l, exNamed.schema = some l → (l.map Prod.fst).Nodup := by intro l hl; cases hl; decide
  refine ⟨hm, hnd, hwf, hs, ?_⟩
  obtain ⟨-, -, -, h4⟩ := fromPandas_total (goTo exParams) (fun _ => 0) 17 ⟨List.reverse, List.reverse, List.reverse_perm⟩ exTable exNamed
    (fun es => List.reverse_perm es) hnd hwf hs
  obtain ⟨s, t, hsn, hsd, htn, -, hok⟩ := h4 (by intro l hl; cases hl; decide) (by decide)
    ⟨by intro l hl; cases hl; decide, by intro l hl; cases hl; decide, by intro l hl; cases hl⟩
  have es : s = exSchema := by
    have h1 := locateSchema_of_named hnd hsn
    have h2 : locateSchema exTable.cols exNamed.schema = .ok exSchema := by rfl
    rw [h2] at h1; exact (Except.ok.inj h1).symm
  have et : t = exTabu := by
    have h1 := Notears.translate_of_named hnd htn
    have h2 : Notears.translate exTable.cols exNamed.tabu = .ok exTabu := by rfl
    rw [h2] at h1; exact (Except.ok.inj h1).symm
  subst es et
  obtain ⟨f, g, hg, hnames, -, -, henc, -, -, -, -, -, -, hedges⟩ := hok g0 hg0
  have hlay := fromNumpy_layout (x := exArgs) hwf hsd hg0
  have hncl : NoClash exTable.cols g0.encs := by
    intro e he m hm hml v hv hmem
    have h1 : ∀ w ∈ exTable.cols, w.length = 1 := by decide
    have h2 := h1 _ hmem
    unfold columnName at h2
    rw [if_neg (by omega), List.length_append, h1 v (List.mem_of_getElem? hv)] at h2
    have h3 : Verif.Str.natStr m ≠ [] := Verif.Str.natStr_ne_nil m
    have := List.length_pos_iff.2 h3
    omega
  refine ⟨g, hg, by rw [henc]; exact hncl, ?_⟩
  refine ⟨⟨f e0.src, f e0.dst, e0.weight, e0.meanEffect, "learned"⟩, ?_, ?_, ?_⟩
  · rw [(hedges hncl).1.mem_iff]; exact List.mem_map_of_mem he0
  · obtain ⟨u, hu, hu'⟩ := hlay.1.var (u := 0) (by decide)
    obtain ⟨v, hv, hfv⟩ := hnames u hu 0 0 (by rw [← List.head?_eq_getElem?, hlay.1.head u hu, hu'])
    rw [hu'] at hv
    cases hv
    simp only [hsrc, hfv]; rfl
  · obtain ⟨u, hu, hu'⟩ := hlay.1.var (u := 3) (by decide)
    obtain ⟨v, hv, hfv⟩ := hnames u hu 0 3 (by rw [← List.head?_eq_getElem?, hlay.1.head u hu, hu'])
    rw [hu'] at hv
    cases hv
    simp only [hdst, hfv]; rfl

/-- The hypotheses of `loss_likelihood` are met by every variable of `exFrame`: one is a count, with whole numbers, none is binary. -/
example : ∃ p, prepareChecked exFrame exSchema exTabu = .ok p ∧ (∃ e ∈ p.encs, e.alias = .poiss) ∧
    ∀ e ∈ p.encs, (e.alias = .bin → ∀ v ∈ exFrame.column e.idx, v = 0 ∨ v = 1) ∧
      (e.alias = .poiss → ∀ v ∈ exFrame.column e.idx, ∃ n : ℕ, v = n) := by
  have h : (match prepareChecked exFrame exSchema exTabu with
      | .ok p => decide (p.encs.map (fun e => (e.idx, e.alias)) = [(3, .cat), (0, .cont), (1, .cat), (2, .poiss)])
      | .error _ => false) = true := by decide +kernel
  cases hp : prepareChecked exFrame exSchema exTabu with
  | error e => rw [hp] at h; simp at h
  | ok p =>
    rw [hp] at h
    have h := of_decide_eq_true h
    refine ⟨p, rfl, ?_, ?_⟩
    · have : (2, Alias.poiss) ∈ p.encs.map (fun e => (e.idx, e.alias)) := by rw [h]; simp
      obtain ⟨e, he, hh⟩ := List.mem_map.1 this
      exact ⟨e, he, (Prod.mk.inj hh).2⟩
    · intro e he
      have hm : (e.idx, e.alias) ∈ p.encs.map (fun e => (e.idx, e.alias)) := List.mem_map_of_mem he
      rw [h] at hm
      simp only [List.mem_cons, Prod.mk.injEq, List.not_mem_nil, or_false] at hm
      rcases hm with ⟨q, r⟩ | ⟨q, r⟩ | ⟨q, r⟩ | ⟨q, r⟩
      · exact ⟨fun h => by (rw [r] at h; cases h), fun h => by (rw [r] at h; cases h)⟩
      · exact ⟨fun h => by (rw [r] at h; cases h), fun h => by (rw [r] at h; cases h)⟩
      · exact ⟨fun h => by (rw [r] at h; cases h), fun h => by (rw [r] at h; cases h)⟩
      · refine ⟨fun h => by (rw [r] at h; cases h), fun _ v hv => ?_⟩
        rw [q] at hv
        change v ∈ [(2 : ℚ), 0, 1, 4] at hv
        simp only [List.mem_cons, List.not_mem_nil, or_false] at hv
        rcases hv with rfl | rfl | rfl | rfl
        · exact ⟨2, by norm_num⟩
        · exact ⟨0, by norm_num⟩
        · exact ⟨1, by norm_num⟩
        · exact ⟨4, by norm_num⟩

end Verif.Pytorch
