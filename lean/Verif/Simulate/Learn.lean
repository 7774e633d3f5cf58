import Verif.Simulate.Moments
import Verif.Generators.WrappersProps
import Verif.Generators.Law.Spec
import Verif.Notears.PropsIdentify
import Verif.Notears.PropsPandas

/-!
# C126: learning the graph from data generated with it

`generate_continuous_dataframe` with `noise_scale = 1` followed by `from_pandas`.
-/

namespace Verif.Simulate

open MeasureTheory ProbabilityTheory Verif.Generators Verif.Notears Verif.Mapper

section
variable {N : Type} [DecidableEq N] {n : ℕ}

/-! ### Specification -/

/-- The data frame returned by a generator, as the data frame given to `from_pandas`. -/
def frame (F : SemFrame N n) : DataFrame N ℝ where
  cols := F.map (·.1)
  numeric := F.map fun _ => true
  rows := n
  entry i j := if h : i < n then F[j]?.map fun c => c.2 ⟨i, h⟩ else none

/-- The weight of the edge from `u` to `v`, 0 if there is none. -/
noncomputable def weightOf (g : SemGraph N) (u v : N) : ℝ := ((g.edges.find? fun e => e.1 = u ∧ e.2.1 = v).bind fun e => e.2.2).getD 0

/-- The weights for the columns in a given order. -/
noncomputable def orderedWeights (g : SemGraph N) (cols : List N) (i j : ℕ) : ℝ :=
  match cols[i]?, cols[j]? with
  | some u, some v => weightOf g u v
  | _, _ => 0

/-- `g'` has the nodes and edges of `g`, with the same weights up to `ε`. -/
structure SameGraph (g : SemGraph N) (g' : Graph N ℝ) (ε : ℝ) : Prop where
  nodes : g'.nodes.Perm g.nodes
  edges : ∀ u v, (∃ x o, (⟨u, v, x, o⟩ : Edge N ℝ) ∈ g'.edges) ↔ (u, v) ∈ g.pairs
  weights : ∀ u v x o, (⟨u, v, x, o⟩ : Edge N ℝ) ∈ g'.edges → |x - weightOf g u v| < ε

/-- A call of `from_pandas` without excluded edges that returns without warning, whose optimiser is never worse than the weights of
`g`, whose tolerance is at most `δ` and whose threshold separates the weights of `g` from 0 with the margin `ε`. -/
structure GoodRun (g : SemGraph N) (X : DataFrame N ℝ) (minimize : Minimizer ℝ) (fuel : ℕ) (a : Params ℝ N) (g' : Graph N ℝ) (δ ε : ℝ) :
    Prop where
  run : fromPandas (problem X.values) minimize fuel X a = .ok g'
  tabu : a.tabu = {}
  iterations : a.maxIter ≠ 0
  bounds : RespectsBounds minimize
  optimiser : NotWorse (problem X.values) minimize (box X.cols.length {}) (rowMajor X.cols.length (orderedWeights g X.cols))
  silent : fromNumpyWarns (problem X.values) minimize fuel X.values ⟨a.maxIter, a.hTol, a.wThreshold, {}⟩ = false
  tolerance : a.hTol ≤ δ
  low : ε ≤ a.wThreshold
  high : ∀ e ∈ g.edges, ∀ c, e.2.2 = some c → a.wThreshold + ε ≤ |c|

/-! ### The weights -/

variable {g : SemGraph N}

theorem weightOf_edge (hg : g.WF) {u v : N} {w : Option ℝ} (h : (u, v, w) ∈ g.edges) : weightOf g u v = w.getD 0 := by
  unfold weightOf
  cases hf : g.edges.find? fun e => e.1 = u ∧ e.2.1 = v with
  | none =>
    have := List.find?_eq_none.1 hf _ h
    simp at this
  | some e =>
    have h1 := List.mem_of_find?_eq_some hf
    have h2 := List.find?_some hf
    simp only [decide_eq_true_eq] at h2
    have : e = (u, v, w) := List.inj_on_of_nodup_map hg.edges h1 h (Prod.ext h2.1 h2.2)
    rw [this]
    rfl

theorem weightOf_none {u v : N} (h : (u, v) ∉ g.pairs) : weightOf g u v = 0 := by
  unfold weightOf
  rw [List.find?_eq_none.2]
  · rfl
  · intro e he
    simp only [decide_eq_true_eq]
    rintro ⟨rfl, rfl⟩
    exact h (List.mem_map.2 ⟨e, he, rfl⟩)

theorem ordered_get {cols : List N} {i j : ℕ} {u v : N} (hi : cols[i]? = some u) (hj : cols[j]? = some v) :
    orderedWeights g cols i j = weightOf g u v := by
  unfold orderedWeights
  rw [hi, hj]

theorem ordered_acyclic (ha : Verif.Graph.Acyclic g.pairs) (cols : List N) : AcyclicWeights cols.length (orderedWeights g cols) := by
  have key : ∀ i j : Fin cols.length,
      Relation.TransGen (fun a b : Fin cols.length => orderedWeights g cols a b ≠ 0) i j →
        Relation.TransGen (Verif.Graph.EdgeRel g.pairs) cols[i] cols[j] := by
    intro i j h
    have step : ∀ a b : Fin cols.length, orderedWeights g cols a b ≠ 0 → Verif.Graph.EdgeRel g.pairs cols[a] cols[b] := by
      intro a b hab
      rw [ordered_get (List.getElem?_eq_getElem a.2) (List.getElem?_eq_getElem b.2)] at hab
      by_contra hn
      exact hab (weightOf_none hn)
    induction h with
    | single h => exact .single (step _ _ h)
    | tail _ h ih => exact ih.tail (step _ _ h)
  exact fun i h => ha _ (key i i h)

/-- One tolerance for all orders of the columns. -/
theorem uniform_tolerance (ha : Verif.Graph.Acyclic g.pairs) {ε : ℝ} (hε : 0 < ε) : ∃ δ > 0, ∀ cols, cols.Perm g.nodes →
    ∀ (X : Data ℝ) (v : ℝ) (minimize : Minimizer ℝ) (fuel : ℕ) (a : Params ℝ ℕ) (g' : Graph ℕ ℝ), X.cols = cols.length → 0 < v →
      EqualErrors X (orderedWeights g cols) v (δ * v) → RespectsBounds minimize → notears minimize fuel X a = .ok g' → a.maxIter ≠ 0 →
      NotWorse (problem X) minimize (box cols.length a.tabu) (rowMajor cols.length (orderedWeights g cols)) →
      fromNumpyWarns (problem X) minimize fuel X a = false →
      a.hTol ≤ δ → ε ≤ a.wThreshold →
      (∀ i < cols.length, ∀ j < cols.length, orderedWeights g cols i j ≠ 0 → a.wThreshold + ε ≤ |orderedWeights g cols i j|) →
      (∀ i j, (∃ x o, (⟨i, j, x, o⟩ : Edge ℕ ℝ) ∈ g'.edges) ↔
        i < cols.length ∧ j < cols.length ∧ orderedWeights g cols i j ≠ 0) ∧
      ∀ i j x o, (⟨i, j, x, o⟩ : Edge ℕ ℝ) ∈ g'.edges → |x - orderedWeights g cols i j| < ε := by
  have key : ∀ l : List (List N), ∃ δ > 0, ∀ cols ∈ l,
    ∀ (X : Data ℝ) (v : ℝ) (minimize : Minimizer ℝ) (fuel : ℕ) (a : Params ℝ ℕ) (g' : Graph ℕ ℝ), X.cols = cols.length → 0 < v →
      EqualErrors X (orderedWeights g cols) v (δ * v) → RespectsBounds minimize → notears minimize fuel X a = .ok g' → a.maxIter ≠ 0 →
      NotWorse (problem X) minimize (box cols.length a.tabu) (rowMajor cols.length (orderedWeights g cols)) →
      fromNumpyWarns (problem X) minimize fuel X a = false →
      a.hTol ≤ δ → ε ≤ a.wThreshold →
      (∀ i < cols.length, ∀ j < cols.length, orderedWeights g cols i j ≠ 0 → a.wThreshold + ε ≤ |orderedWeights g cols i j|) →
      (∀ i j, (∃ x o, (⟨i, j, x, o⟩ : Edge ℕ ℝ) ∈ g'.edges) ↔
        i < cols.length ∧ j < cols.length ∧ orderedWeights g cols i j ≠ 0) ∧
      ∀ i j x o, (⟨i, j, x, o⟩ : Edge ℕ ℝ) ∈ g'.edges → |x - orderedWeights g cols i j| < ε := by
    intro l
    induction l with
    | nil => exact ⟨1, one_pos, by simp⟩
    | cons c l ih =>
      obtain ⟨δ₁, h1, k1⟩ := notears_recovers (ordered_acyclic ha c) hε
      obtain ⟨δ₂, h2, k2⟩ := ih
      refine ⟨min δ₁ δ₂, lt_min h1 h2, ?_⟩
      intro cols hcols X v minimize fuel a g' hX hv hE hb hrun hmax hopt hs htol hlow hhigh
      have mono : ∀ δ, min δ₁ δ₂ ≤ δ → EqualErrors X (orderedWeights g cols) v (δ * v) := fun δ hδ j hj k hk =>
        (hE j hj k hk).trans (mul_le_mul_of_nonneg_right hδ hv.le)
      rcases List.mem_cons.1 hcols with rfl | hm
      · exact k1 X v minimize fuel a g' hX hv (mono _ (min_le_left _ _)) hb hrun hmax hopt hs (htol.trans (min_le_left _ _)) hlow hhigh
      · exact k2 cols hm X v minimize fuel a g' hX hv (mono _ (min_le_right _ _)) hb hrun hmax hopt hs (htol.trans (min_le_right _ _))
          hlow hhigh
  obtain ⟨δ, hδ, h⟩ := key g.nodes.permutations
  exact ⟨δ, hδ, fun cols hc => h cols (List.mem_permutations.2 hc)⟩

/-! ### The errors of generated data -/

theorem sum_preds (hg : g.WF) (hw : ∀ e ∈ g.edges, ∃ c, e.2.2 = some c) {cols : List N} (hc : cols.Perm g.nodes) (v : N) (x : N → ℝ)
    {W : N → N → ℝ} (hW : ∀ u c, (u, v, some c) ∈ g.edges → W u v = c) :
    ((g.preds v).map fun u => x u * W u v).sum = (cols.map fun u => x u * weightOf g u v).sum := by
  have hnd : cols.Nodup := hc.nodup_iff.2 hg.nodes
  have hpn : (g.preds v).Nodup := by
    refine (List.nodup_map_iff_inj_on ?_).2 ?_
    · exact (List.Nodup.of_map _ hg.edges).filter _
    · intro e he e' he' hee
      have h1 := List.mem_filter.1 he
      have h2 := List.mem_filter.1 he'
      simp only [decide_eq_true_eq] at h1 h2
      exact List.inj_on_of_nodup_map hg.edges h1.1 h2.1 (Prod.ext hee (h1.2.trans h2.2.symm))
  have h1 : ((g.preds v).map fun u => x u * W u v).sum = ∑ u ∈ (g.preds v).toFinset, x u * W u v := (List.sum_toFinset _ hpn).symm
  have h2 : (cols.map fun u => x u * weightOf g u v).sum = ∑ u ∈ cols.toFinset, x u * weightOf g u v := (List.sum_toFinset _ hnd).symm
  rw [h1, h2]
  have hsub : (g.preds v).toFinset ⊆ cols.toFinset := by
    intro u hu
    rw [List.mem_toFinset] at hu ⊢
    obtain ⟨e, he, rfl⟩ := List.mem_map.1 hu
    exact hc.mem_iff.2 (hg.ends _ (List.mem_map.2 ⟨e, (List.mem_filter.1 he).1, rfl⟩)).1
  rw [← Finset.sum_subset hsub]
  · refine Finset.sum_congr rfl fun u hu => ?_
    rw [List.mem_toFinset] at hu
    obtain ⟨e, he, rfl⟩ := List.mem_map.1 hu
    obtain ⟨he1, he2⟩ := List.mem_filter.1 he
    simp only [decide_eq_true_eq] at he2
    obtain ⟨c, hce⟩ := hw e he1
    have he3 : (e.1, v, some c) ∈ g.edges := by
      rw [← he2, ← hce]
      exact he1
    rw [weightOf_edge hg he3, hW _ _ he3]
    rfl
  · intro u _ hu
    rw [weightOf_none, mul_zero]
    intro hp
    obtain ⟨e, he, heq⟩ := List.mem_map.1 hp
    obtain ⟨rfl, rfl⟩ := Prod.mk.inj heq
    exact hu (List.mem_toFinset.2 (List.mem_map.2 ⟨e, List.mem_filter.2 ⟨he, by simp⟩, rfl⟩))

variable {C : Type}

/-- In generated data the errors of the equations with the weights of the graph are the noise drawn. -/
theorem generated_residual {E : Outside N n C} (hE : E.OK g) (hk : E.kernel = none) (hg : g.WF) (ha : Verif.Graph.Acyclic g.pairs)
    (hw : ∀ e ∈ g.edges, ∃ c, e.2.2 = some c) {distribution : String} (hd : distribution ∈ knownDistributions) {F : SemFrame N n}
    (hF : continuousFrame E g distribution 1 false = .ok F) :
    (F.map (·.1)).Perm g.nodes ∧ (frame F).values.finite = true ∧ ∀ (r : Fin n) (j : ℕ) (v : N), (F.map (·.1))[j]? = some v →
      (frame F).values.residual (orderedWeights g (F.map (·.1))) r j = E.draws.noise distribution 1 v 0 r := by
  obtain ⟨F', val, hF', hperm, hget, hfr, mean, hmean, hreal⟩ := continuousFrame_correct hE hg ha hd 1 false
  rw [hF] at hF'
  obtain rfl := Except.ok.inj hF'
  unfold MeanOf at hmean
  rw [hk] at hmean
  obtain ⟨W, b, hW, hb, rfl⟩ := hmean
  have hcol : ∀ (j : ℕ) (v : N), (F.map (·.1))[j]? = some v → ∀ r : Fin n, (frame F).values.entry r j = some (val v r) := by
    intro j v hj r
    rw [List.getElem?_map] at hj
    cases hc : F[j]? with
    | none => rw [hc] at hj; cases hj
    | some c =>
      rw [hc] at hj
      have hv : c.1 = v := Option.some.inj hj
      have hmem : (c.1, c.2) ∈ F := List.mem_of_getElem? hc
      have h2 := ((hfr.2 c.1 c.2).1 hmem).2
      change (frame F).entry r j = _
      unfold frame
      simp only [dif_pos r.2, hc, Option.map_some]
      rw [h2, hv]
  refine ⟨hperm, ?_, ?_⟩
  · rw [Data.finite, List.all_eq_true]
    intro r hr
    rw [List.all_eq_true]
    intro j hj
    have hr' : r < n := List.mem_range.1 hr
    have hj' : j < (F.map (·.1)).length := List.mem_range.1 hj
    rw [hcol j _ (List.getElem?_eq_getElem hj') ⟨r, hr'⟩]
    rfl
  · intro r j v hj
    have hvn : v ∈ g.nodes := hperm.mem_iff.1 (List.mem_of_getElem? hj)
    have hval : ∀ (k : ℕ) (u : N), (F.map (·.1))[k]? = some u → (frame F).values.val r k = val u r := by
      intro k u hku
      rw [Data.val, hcol k u hku r]
      rfl
    have h1 := hreal v hvn
    change ∀ r, val v r = structuralMean E.fmt g (fun _ => .continuous) W b val v v r + noiseOf g E.draws 1 distribution v 0 r at h1
    have h2 : noiseOf g E.draws 1 distribution v 0 r = E.draws.noise distribution 1 v 0 r := by
      unfold noiseOf
      simp only [ite_self, mul_one]
    have h3 : structuralMean E.fmt g (fun _ => .continuous) W b val v v r =
        ((F.map (·.1)).map fun u => val u r * weightOf g u v).sum := by
      rw [← sum_preds hg hw hperm v (fun u => val u r) (W := W) (fun u c huc => by
        have := hW u v (some c) huc 0 0 u v rfl rfl
        simpa [VarType.features] using this)]
      unfold structuralMean
      rw [show b v = 0 by rw [hb]; simp, add_zero]
      congr 1
      simp [VarType.features]
    have h4 : ∑ k ∈ Finset.range (frame F).values.cols, (frame F).values.val r k * orderedWeights g (F.map (·.1)) k j =
        ((F.map (·.1)).map fun u => val u r * weightOf g u v).sum := by
      change ∑ k ∈ Finset.range (F.map (·.1)).length, _ = _
      rw [Finset.sum_range, ← Fin.sum_univ_fun_getElem]
      refine Finset.sum_congr rfl fun k _ => ?_
      have hku := List.getElem?_eq_getElem k.2
      rw [hval k _ hku, ordered_get hku hj]
    unfold Data.residual
    rw [h4, hval j v hj, h1 r, h3, h2]
    ring

/-- Generated data have errors of nearly equal size if the noise has. -/
theorem generated_equalErrors {E : Outside N n C} (hE : E.OK g) (hk : E.kernel = none) (hg : g.WF) (ha : Verif.Graph.Acyclic g.pairs)
    (hw : ∀ e ∈ g.edges, ∃ c, e.2.2 = some c) {distribution : String} (hd : distribution ∈ knownDistributions) {F : SemFrame N n}
    (hF : continuousFrame E g distribution 1 false = .ok F) {v δ : ℝ}
    (hnear : Near n v δ (fun (u : {u // u ∈ g.nodes}) r => if h : r < n then E.draws.noise distribution 1 u 0 ⟨r, h⟩ else 0)) :
    EqualErrors (frame F).values (orderedWeights g (F.map (·.1))) v δ := by
  obtain ⟨hperm, hfin, hres⟩ := generated_residual hE hk hg ha hw hd hF
  have hnd : (F.map (·.1)).Nodup := hperm.nodup_iff.2 hg.nodes
  intro j hj k hk
  change j < (F.map (·.1)).length at hj
  change k < (F.map (·.1)).length at hk
  have hj' := List.getElem?_eq_getElem hj
  have hk' := List.getElem?_eq_getElem hk
  have := hnear ⟨(F.map (·.1))[j], hperm.mem_iff.1 (List.getElem_mem hj)⟩ ⟨(F.map (·.1))[k], hperm.mem_iff.1 (List.getElem_mem hk)⟩
  unfold Data.residualProduct
  have hrows : ∀ r ∈ Finset.range (frame F).values.rows,
      (frame F).values.residual (orderedWeights g (F.map (·.1))) r j * (frame F).values.residual (orderedWeights g (F.map (·.1))) r k =
      (if h : r < n then E.draws.noise distribution 1 (F.map (·.1))[j] 0 ⟨r, h⟩ else 0) *
        if h : r < n then E.draws.noise distribution 1 (F.map (·.1))[k] 0 ⟨r, h⟩ else 0 := by
    intro r hr
    have hr' : r < n := Finset.mem_range.1 hr
    rw [dif_pos hr', dif_pos hr', ← hres ⟨r, hr'⟩ j _ hj', ← hres ⟨r, hr'⟩ k _ hk']
  rw [Finset.sum_congr rfl hrows]
  have hjk : (j = k) = ((⟨(F.map (·.1))[j], hperm.mem_iff.1 (List.getElem_mem hj)⟩ : {u // u ∈ g.nodes}) =
      ⟨(F.map (·.1))[k], hperm.mem_iff.1 (List.getElem_mem hk)⟩) := by
    rw [Subtype.mk.injEq, hnd.getElem_inj_iff]
  simp only [hjk]
  exact this

/-! ### The theorem -/

theorem exists_left {A B : Type} {R : A → B → Prop} {l : List A} {l' : List B} (h : List.Forall₂ R l l') {y : B} (hy : y ∈ l') :
    ∃ x ∈ l, R x y := by
  induction h with
  | nil => simp at hy
  | cons h1 _ ih =>
    rcases List.mem_cons.1 hy with rfl | hm
    · exact ⟨_, List.mem_cons_self, h1⟩
    · obtain ⟨x, hx, hr⟩ := ih hm
      exact ⟨x, List.mem_cons_of_mem _ hx, hr⟩

theorem exists_right {A B : Type} {R : A → B → Prop} {l : List A} {l' : List B} (h : List.Forall₂ R l l') {x : A} (hx : x ∈ l) :
    ∃ y ∈ l', R x y := exists_left (R := fun y x => R x y) h.flip hx

omit [DecidableEq N] in
theorem tabuNamed_empty {cols : List N} {t : Tabu ℕ} (ht : TabuNamed cols {} t) : t = {} := by
  obtain ⟨h1, h2, h3⟩ := ht
  obtain ⟨te, tp, tc⟩ := t
  cases te with
  | some _ => cases h1
  | none => cases tp with
    | some _ => cases h2
    | none => cases tc with
      | some _ => cases h3
      | none => rfl

/-- If the noise has nearly the expected mean products, a good run learns the graph. -/
theorem learns_of_near (hg : g.WF) (ha : Verif.Graph.Acyclic g.pairs) (hw : ∀ e ∈ g.edges, ∃ c, e.2.2 = some c) {ε : ℝ}
    (hε : 0 < ε) : ∃ δ > 0, ∀ (n : ℕ) (E : Outside N n C) (distribution : String) (v : ℝ) (F : SemFrame N n) (minimize : Minimizer ℝ)
      (fuel : ℕ) (a : Params ℝ N) (g' : Graph N ℝ), E.OK g → E.kernel = none → distribution ∈ knownDistributions → 0 < v →
      Near n v (δ * v) (fun (u : {u // u ∈ g.nodes}) r => if h : r < n then E.draws.noise distribution 1 u 0 ⟨r, h⟩ else 0) →
      continuousFrame E g distribution 1 false = .ok F → GoodRun g (frame F) minimize fuel a g' δ ε → SameGraph g g' ε := by
  obtain ⟨δ, hδ, htol⟩ := uniform_tolerance ha hε
  refine ⟨δ, hδ, fun n E distribution v F minimize fuel a g' hE hk hd hv hnear hF hrun => ?_⟩
  obtain ⟨hperm, hfin, hres⟩ := generated_residual hE hk hg ha hw hd hF
  have hnd : (F.map (·.1)).Nodup := hperm.nodup_iff.2 hg.nodes
  have hEq := generated_equalErrors hE hk hg ha hw hd hF hnear
  -- the run
  have hX : (frame F).cols = F.map (·.1) := rfl
  have hnum : ∀ b ∈ (frame F).numeric, b = true := by
    intro b hb
    obtain ⟨c, -, rfl⟩ := List.mem_map.1 hb
    rfl
  obtain ⟨t, ht, herr, hok⟩ := fromPandas_ok (problem (frame F).values) minimize fuel (X := frame F) hnd a hnum
    (by rw [hrun.tabu]; exact ⟨by simp, by simp, by simp⟩)
  obtain rfl := tabuNamed_empty (hrun.tabu ▸ ht)
  cases hgg : fromNumpy (problem (frame F).values) minimize fuel (frame F).values { a with tabu := {} } with
  | error e =>
    have := herr e hgg
    rw [hrun.run] at this
    cases this
  | ok gg =>
    obtain ⟨g'', h1, h2, h3⟩ := hok gg hgg
    rw [hrun.run] at h1
    obtain rfl := Except.ok.inj h1
    have hcols : (frame F).values.cols = (F.map (·.1)).length := rfl
    have hopt := hrun.optimiser
    have hsil := hrun.silent
    rw [hX] at hopt
    have hr0 := htol (F.map (·.1)) hperm (frame F).values v minimize fuel ⟨a.maxIter, a.hTol, a.wThreshold, {}⟩ gg hcols hv
    have hr1 := hr0 hEq
    have hr := hr1 hrun.bounds hgg hrun.iterations hopt hsil hrun.tolerance hrun.low (by
        intro i hi j hj hne
        have hi' := List.getElem?_eq_getElem hi
        have hj' := List.getElem?_eq_getElem hj
        rw [ordered_get hi' hj'] at hne ⊢
        have hp : ((F.map (·.1))[i], (F.map (·.1))[j]) ∈ g.pairs := by
          by_contra hn
          exact hne (weightOf_none hn)
        obtain ⟨e, he, heq⟩ := List.mem_map.1 hp
        obtain ⟨c, hc⟩ := hw e he
        have he' : ((F.map (·.1))[i], (F.map (·.1))[j], some c) ∈ g.edges := by
          rw [← (Prod.mk.inj heq).1, ← (Prod.mk.inj heq).2, ← hc]
          exact he
        rw [weightOf_edge hg he']
        exact hrun.high _ he' c rfl)
    have hnz : ∀ u v, (u, v) ∈ g.pairs → weightOf g u v ≠ 0 := by
      intro u w hp h0
      obtain ⟨e, he, heq⟩ := List.mem_map.1 hp
      obtain ⟨c, hc⟩ := hw e he
      have he' : (u, w, some c) ∈ g.edges := by
        rw [← (Prod.mk.inj heq).1, ← (Prod.mk.inj heq).2, ← hc]
        exact he
      rw [weightOf_edge hg he'] at h0
      have hc0 : c = 0 := h0
      have hh := hrun.high _ he' c rfl
      rw [hc0, abs_zero] at hh
      have := hrun.low
      linarith
    have back : ∀ u w x o, (⟨u, w, x, o⟩ : Edge N ℝ) ∈ g'.edges → ∃ i j o', (⟨i, j, x, o'⟩ : Edge ℕ ℝ) ∈ gg.edges ∧
        (F.map (·.1))[i]? = some u ∧ (F.map (·.1))[j]? = some w := by
      intro u w x o he
      obtain ⟨e, he1, he2⟩ := exists_left h3 he
      obtain ⟨i, j, y, o'⟩ := e
      obtain ⟨k1, k2, k3, -⟩ := he2
      simp only at k1 k2 k3
      subst k3
      exact ⟨i, j, o', he1, k1, k2⟩
    refine ⟨by rw [h2]; exact hperm, ?_, ?_⟩
    · intro u w
      constructor
      · rintro ⟨x, o, he⟩
        obtain ⟨i, j, o', he', hi, hj⟩ := back u w x o he
        have h5 := ((hr.1 i j).1 ⟨x, o', he'⟩).2.2
        rw [ordered_get hi hj] at h5
        by_contra hn
        exact h5 (weightOf_none hn)
      · intro hp
        obtain ⟨hu, hw'⟩ := hg.ends _ hp
        obtain ⟨i, hi, hiu⟩ := List.getElem_of_mem (hperm.mem_iff.2 hu)
        obtain ⟨j, hj, hjw⟩ := List.getElem_of_mem (hperm.mem_iff.2 hw')
        have hi' : (F.map (·.1))[i]? = some u := by rw [List.getElem?_eq_getElem hi, hiu]
        have hj' : (F.map (·.1))[j]? = some w := by rw [List.getElem?_eq_getElem hj, hjw]
        obtain ⟨x, o, he⟩ := (hr.1 i j).2 ⟨hi, hj, by rw [ordered_get hi' hj']; exact hnz u w hp⟩
        obtain ⟨e', he1, k1, k2, k3, -⟩ := exists_right h3 he
        obtain ⟨u', w', x', o'⟩ := e'
        rw [hX] at k1 k2
        simp only at k1 k2 k3
        rw [hi'] at k1
        rw [hj'] at k2
        obtain rfl := Option.some.inj k1
        obtain rfl := Option.some.inj k2
        exact ⟨x', o', he1⟩
    · intro u w x o he
      obtain ⟨i, j, o', he', hi, hj⟩ := back u w x o he
      have := hr.2 i j x o' he'
      rwa [ordered_get hi hj] at this

/-- Enough rows give noise with nearly the expected mean products. -/
theorem noise_near (g : SemGraph N) (distribution : String) {L : ℝ → Measure ℝ} [IsProbabilityMeasure (L 1)]
    (hL2 : Integrable (fun x => x ^ 2) (L 1)) (hL0 : ∫ x, x ∂(L 1) = 0) {δ : ℝ} (hδ : 0 < δ) {p : ENNReal} (hp : 0 < p) :
    ∃ n₀ : ℕ, ∀ n ≥ n₀, ∀ (Ω : Type) [MeasurableSpace Ω] (P : Measure Ω) [IsProbabilityMeasure P]
      (D₀ : SemDraws N n) (D : Ω → SemDraws N n), RandomDraws distribution L g 1 P D₀ D →
      ∃ S, MeasurableSet S ∧ 1 - p ≤ P S ∧ ∀ ω ∈ S, Near n (∫ x, x ^ 2 ∂(L 1)) δ
        (fun (u : {u // u ∈ g.nodes}) r => if h : r < n then (D ω).noise distribution 1 u 0 ⟨r, h⟩ else 0) := by
  obtain ⟨n₀, hn₀⟩ := near_of_rows (ι := {u // u ∈ g.nodes}) hL2 hL0 hδ hp
  refine ⟨n₀, fun n hn Ω _ P _ D₀ D hD => ?_⟩
  have hs : ∀ v : N, noiseScale g 1 v = 1 := fun v => by unfold noiseScale; exact ite_self _
  have hinj : Function.Injective fun i : {u // u ∈ g.nodes} × Fin n => (DrawIx.noise (i.1 : N) 0 i.2 : DrawIx N n) := by
    rintro ⟨⟨u, hu⟩, r⟩ ⟨⟨u', hu'⟩, r'⟩ h
    simp only [DrawIx.noise.injEq, true_and] at h
    obtain ⟨rfl, rfl⟩ := h
    rfl
  have hval : ∀ i : {u // u ∈ g.nodes} × Fin n, (fun ω => ((D ω).value distribution g 1 (.noise (i.1 : N) 0 i.2) : ℝ)) =
      fun ω => (D ω).noise distribution 1 i.1 0 i.2 := fun i => by
    funext ω
    change (D ω).noise distribution (noiseScale g 1 i.1) _ _ _ = _
    rw [hs]
  have hmeas : ∀ i : {u // u ∈ g.nodes} × Fin n, Measurable fun ω => (D ω).noise distribution 1 i.1 0 i.2 := fun i => by
    rw [← hval]; exact hD.measurable _
  have h := hn₀ n hn Ω P (fun i ω => (D ω).noise distribution 1 i.1 0 i.2) hmeas
    (fun i => by
      rw [← hval, hD.law]
      change L (noiseScale g 1 i.1) = _
      rw [hs])
    (by
      have := hD.indep.precomp hinj
      rwa [show (fun (i : {u // u ∈ g.nodes} × Fin n) ω => (D ω).noise distribution 1 i.1 0 i.2) = fun i ω =>
        ((D ω).value distribution g 1 (.noise (i.1 : N) 0 i.2) : ℝ) from funext fun i => (hval i).symm])
  refine ⟨_, ?_, h, fun ω hω => hω⟩
  exact (measurable_pi_lambda _ hmeas) (measurableSet_near (ι := {u // u ∈ g.nodes}) n (∫ x, x ^ 2 ∂(L 1)) δ)

/-- **C126**: for every graph without cycles whose edges have weights there is a tolerance such that, for every distribution of the
noise with mean 0 and a finite positive variance and with enough rows, `generate_continuous_dataframe` with `noise_scale=1` gives, with
a probability as close to 1 as desired, data from which every good run of `from_pandas` learns exactly this graph. -/
theorem generated_graph_is_learned (hg : g.WF) (ha : Verif.Graph.Acyclic g.pairs) (hw : ∀ e ∈ g.edges, ∃ c, e.2.2 = some c)
    {ε : ℝ} (hε : 0 < ε) :
    ∃ δ > 0, ∀ distribution ∈ knownDistributions, ∀ (L : ℝ → Measure ℝ) [IsProbabilityMeasure (L 1)],
      Integrable (fun x => x ^ 2) (L 1) → ∫ x, x ∂(L 1) = 0 → 0 < ∫ x, x ^ 2 ∂(L 1) → ∀ p : ENNReal, 0 < p → ∃ n₀ : ℕ,
      ∀ n ≥ n₀, ∀ (Ω : Type) [MeasurableSpace Ω] (P : Measure Ω) [IsProbabilityMeasure P]
      (D₀ : SemDraws N n) (E : Ω → Outside N n C), (∀ ω, (E ω).OK g) → (∀ ω, (E ω).kernel = none) →
      RandomDraws distribution L g 1 P D₀ (fun ω => (E ω).draws) →
      ∃ S, MeasurableSet S ∧ 1 - p ≤ P S ∧ ∀ ω ∈ S, ∀ F, continuousFrame (E ω) g distribution 1 false = .ok F →
        ∀ minimize fuel a g', GoodRun g (frame F) minimize fuel a g' δ ε → SameGraph g g' ε := by
  obtain ⟨δ, hδ, hlearn⟩ := learns_of_near (C := C) hg ha hw hε
  refine ⟨δ, hδ, fun distribution hd L _ hL2 hL0 hLv p hp => ?_⟩
  obtain ⟨n₀, hn₀⟩ := noise_near g distribution hL2 hL0 (mul_pos hδ hLv) hp
  refine ⟨n₀, fun n hn Ω _ P _ D₀ E hE hk hD => ?_⟩
  obtain ⟨S, hS, hP, hnear⟩ := hn₀ n hn Ω P D₀ _ hD
  exact ⟨S, hS, hP, fun ω hω F hF minimize fuel a g' hrun =>
    hlearn n (E ω) distribution _ F minimize fuel a g' (hE ω) (hk ω) hd hLv (hnear ω hω) hF hrun⟩

/-- Arguments of `from_pandas` for which the run is good with data whose errors have the mean square `v`: the iterations and the
penalty suffice for the tolerance. -/
structure GoodArgs (g : SemGraph N) (X : DataFrame N ℝ) (minimize : Minimizer ℝ) (fuel : ℕ) (a : Params ℝ N) (v δ ε : ℝ) : Prop where
  fuel : 21 ≤ fuel
  tabu : a.tabu = {}
  iterations : a.maxIter ≠ 0
  bounds : RespectsBounds minimize
  optimiser : NotWorse (problem X.values) minimize (box X.cols.length {}) (rowMajor X.cols.length (orderedWeights g X.cols))
  nonneg : 0 ≤ a.hTol
  penalty : 2 * X.cols.length * v ≤ 10 ^ 19 * a.hTol ^ 2
  enough : 2 * X.cols.length * v ≤ (a.hTol * 4 ^ (a.maxIter - 1)) ^ 2
  tolerance : a.hTol ≤ δ
  low : ε ≤ a.wThreshold
  high : ∀ e ∈ g.edges, ∀ c, e.2.2 = some c → a.wThreshold + ε ≤ |c|

theorem goodRun_of_args (hg : g.WF) (ha : Verif.Graph.Acyclic g.pairs) (hw : ∀ e ∈ g.edges, ∃ c, e.2.2 = some c) (hne : g.nodes ≠ [])
    (hn : 0 < n) {E : Outside N n C} (hE : E.OK g) (hk : E.kernel = none) {distribution : String}
    (hd : distribution ∈ knownDistributions) {F : SemFrame N n} (hF : continuousFrame E g distribution 1 false = .ok F) {v : ℝ}
    (hnear : Near n v v (fun (u : {u // u ∈ g.nodes}) r => if h : r < n then E.draws.noise distribution 1 u 0 ⟨r, h⟩ else 0))
    {minimize : Minimizer ℝ} {fuel : ℕ} {a : Params ℝ N} {δ ε : ℝ} (h : GoodArgs g (frame F) minimize fuel a v δ ε) :
    ∃ g', GoodRun g (frame F) minimize fuel a g' δ ε := by
  obtain ⟨hperm, hfin, -⟩ := generated_residual hE hk hg ha hw hd hF
  have hEq := generated_equalErrors hE hk hg ha hw hd hF hnear
  have hnd : (F.map (·.1)).Nodup := hperm.nodup_iff.2 hg.nodes
  have hlen : 0 < (F.map (·.1)).length := by
    rw [hperm.length_eq]
    exact List.length_pos_iff.2 hne
  obtain ⟨gg, hgg⟩ := notears_total minimize (frame F).values ⟨a.maxIter, a.hTol, a.wThreshold, {}⟩ ⟨hfin, by
    change n * (F.map (·.1)).length ≠ 0
    exact Nat.mul_ne_zero hn.ne' hlen.ne'⟩
  have hgg := hgg fuel h.fuel
  have hnum : ∀ b ∈ (frame F).numeric, b = true := by
    intro b hb
    obtain ⟨c, -, rfl⟩ := List.mem_map.1 hb
    rfl
  obtain ⟨t, ht, -, hok⟩ := fromPandas_ok (problem (frame F).values) minimize fuel (X := frame F) hnd a hnum
    (by rw [h.tabu]; exact ⟨by simp, by simp, by simp⟩)
  obtain rfl := tabuNamed_empty (h.tabu ▸ ht)
  obtain ⟨g', hg', -⟩ := hok gg hgg
  refine ⟨g', hg', h.tabu, h.iterations, h.bounds, h.optimiser, ?_, h.tolerance, h.low, h.high⟩
  have hsq : 2 * squaredError (frame F).values (orderedWeights g (F.map (·.1))) ≤ 2 * (F.map (·.1)).length * v := by
    rw [squaredError_self]
    have h1 : ∀ j ∈ (Finset.univ : Finset (Fin (frame F).values.cols)),
        (frame F).values.residualProduct (orderedWeights g (F.map (·.1))) j j ≤ 2 * v := by
      intro j _
      have := (abs_le.1 (hEq j j.2 j j.2)).2
      rw [if_pos rfl] at this
      linarith
    refine (Finset.sum_le_sum h1).trans ?_
    rw [Finset.sum_const, Finset.card_univ, Fintype.card_fin, nsmul_eq_mul]
    change ((F.map (·.1)).length : ℝ) * (2 * v) ≤ _
    linarith
  have hac : AcyclicWeights (frame F).values.cols (orderedWeights g (F.map (·.1))) :=
    ordered_acyclic ha (frame F).cols
  exact notears_no_warning h.bounds hgg h.iterations hac h.optimiser h.nonneg
    (hsq.trans h.penalty) (hsq.trans h.enough)

/-- **C126**, with the conditions for a run to be good: the generator returns data and `from_pandas` returns the graph from them,
without a warning. -/
theorem generated_graph_is_returned (hg : g.WF) (ha : Verif.Graph.Acyclic g.pairs) (hw : ∀ e ∈ g.edges, ∃ c, e.2.2 = some c)
    (hne : g.nodes ≠ []) {ε : ℝ} (hε : 0 < ε) :
    ∃ δ > 0, ∀ distribution ∈ knownDistributions, ∀ (L : ℝ → Measure ℝ) [IsProbabilityMeasure (L 1)],
      Integrable (fun x => x ^ 2) (L 1) → ∫ x, x ∂(L 1) = 0 → 0 < ∫ x, x ^ 2 ∂(L 1) → ∀ p : ENNReal, 0 < p → ∃ n₀ : ℕ,
      ∀ n ≥ n₀, ∀ (Ω : Type) [MeasurableSpace Ω] (P : Measure Ω) [IsProbabilityMeasure P]
      (D₀ : SemDraws N n) (E : Ω → Outside N n C), (∀ ω, (E ω).OK g) → (∀ ω, (E ω).kernel = none) →
      RandomDraws distribution L g 1 P D₀ (fun ω => (E ω).draws) →
      ∃ S, MeasurableSet S ∧ 1 - p ≤ P S ∧ ∀ ω ∈ S, ∃ F, continuousFrame (E ω) g distribution 1 false = .ok F ∧
        ∀ minimize fuel a, GoodArgs g (frame F) minimize fuel a (∫ x, x ^ 2 ∂(L 1)) δ ε →
          ∃ g', fromPandas (problem (frame F).values) minimize fuel (frame F) a = .ok g' ∧ SameGraph g g' ε ∧
            fromNumpyWarns (problem (frame F).values) minimize fuel (frame F).values ⟨a.maxIter, a.hTol, a.wThreshold, {}⟩ = false := by
  obtain ⟨δ, hδ, hlearn⟩ := learns_of_near (C := C) hg ha hw hε
  refine ⟨δ, hδ, fun distribution hd L _ hL2 hL0 hLv p hp => ?_⟩
  obtain ⟨n₀, hn₀⟩ := noise_near g distribution hL2 hL0 (mul_pos (lt_min hδ one_pos) hLv) hp
  refine ⟨max n₀ 1, fun n hn Ω _ P _ D₀ E hE hk hD => ?_⟩
  obtain ⟨S, hS, hP, hnear⟩ := hn₀ n ((le_max_left _ _).trans hn) Ω P D₀ _ hD
  refine ⟨S, hS, hP, fun ω hω => ?_⟩
  obtain ⟨F, val, hF, -⟩ := continuousFrame_correct (hE ω) hg ha hd 1 false
  refine ⟨F, hF, fun minimize fuel a hargs => ?_⟩
  have near_mono : ∀ δ', min δ 1 * (∫ x, x ^ 2 ∂(L 1)) ≤ δ' → Near n (∫ x, x ^ 2 ∂(L 1)) δ'
      (fun (u : {u // u ∈ g.nodes}) r => if h : r < n then (E ω).draws.noise distribution 1 u 0 ⟨r, h⟩ else 0) :=
    fun δ' h j k => (hnear ω hω j k).trans h
  obtain ⟨g', hrun⟩ := goodRun_of_args hg ha hw hne ((le_max_right _ _).trans hn) (hE ω) (hk ω) hd hF
    (near_mono _ (by nlinarith [min_le_right δ 1])) hargs
  exact ⟨g', hrun.run, hlearn n (E ω) distribution _ F minimize fuel a g' (hE ω) (hk ω) hd hLv
    (near_mono _ (mul_le_mul_of_nonneg_right (min_le_left _ _) hLv.le)) hF hrun, hrun.silent⟩

end

end Verif.Simulate
