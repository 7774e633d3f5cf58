import Verif.Pytorch.LearnProps
import Verif.Notears.Objective

/-!
# Cycles, linear models and degenerate networks of the PyTorch version (C62, C78, C80)
-/

namespace Verif.Pytorch

open Verif.Notears (Tabu Minimizer InBox RespectsBounds Permitted ofMatrix mem_ofMatrix)

section
variable {minimize : Minimizer ℝ} {init : ℕ → ℝ} {fuel : ℕ} {X : Frame} {x : Args ℕ} {g : Learned ℕ}

/-- The acyclicity score of the result: `sm.graph["structure_learner"]` has the final parameters, from which `_h_func` computes it. -/
noncomputable def Learned.score {N : Type} (g : Learned N) : ℝ := hFunc g.arch g.encs (g.arch.net g.params)

/-- No directed cycle of learned edges, even if one may step from a column of a variable to any other column of it. -/
def Learned.VarAcyclic (g : Learned ℕ) : Prop :=
  ∀ u, ¬ Relation.TransGen (fun u v => ∃ e ∈ g.edges, ∃ a ∈ g.encs, ∃ b ∈ g.encs, a.idx = u ∧ b.idx = v ∧ e.src ∈ a.cols ∧ e.dst ∈ b.cols) u u

/-- No directed cycle of learned edges. -/
def Learned.Acyclic {N : Type} (g : Learned N) : Prop :=
  ∀ n, ¬ Relation.TransGen (fun u v => ∃ e ∈ g.edges, e.src = u ∧ e.dst = v) n n

/-- Cycles of columns are cycles of variables. -/
theorem Learned.VarAcyclic.acyclic {n : ℕ} (hl : Layout g.encs n g.arch.d) (hlt : ∀ e ∈ g.edges, e.src < g.arch.d ∧ e.dst < g.arch.d)
    (h : g.VarAcyclic) : g.Acyclic := by
  have key : ∀ i j, Relation.TransGen (fun u v => ∃ e ∈ g.edges, e.src = u ∧ e.dst = v) i j →
      ∃ a ∈ g.encs, ∃ b ∈ g.encs, i ∈ a.cols ∧ j ∈ b.cols ∧ Relation.TransGen (fun u v => ∃ e ∈ g.edges, ∃ a ∈ g.encs, ∃ b ∈ g.encs,
        a.idx = u ∧ b.idx = v ∧ e.src ∈ a.cols ∧ e.dst ∈ b.cols) a.idx b.idx := by
    intro i j hij
    induction hij with
    | single hs =>
      obtain ⟨e, he, rfl, rfl⟩ := hs
      obtain ⟨a, ha, ha'⟩ := hl.owner (hlt e he).1
      obtain ⟨b, hb, hb'⟩ := hl.owner (hlt e he).2
      exact ⟨a, ha, b, hb, ha', hb', .single ⟨e, he, a, ha, b, hb, rfl, rfl, ha', hb'⟩⟩
    | tail _ hs ih =>
      obtain ⟨a, ha, b, hb, ha', hb', hab⟩ := ih
      obtain ⟨e, he, rfl, rfl⟩ := hs
      obtain ⟨c, hc, hc'⟩ := hl.owner (hlt e he).2
      exact ⟨a, ha, c, hc, ha', hc', hab.tail ⟨e, he, b, hb, c, hc, rfl, rfl, hb', hc'⟩⟩
  intro i hi
  obtain ⟨a, ha, b, hb, ha', hb', hab⟩ := key i i hi
  rw [hl.owner_unique ha hb ha' hb'] at hab
  exact h _ hab

theorem fromNumpy_edge_lt (h : fromNumpy minimize init fuel X x = .ok g) : ∀ e ∈ g.edges, e.src < g.arch.d ∧ e.dst < g.arch.d := by
  obtain ⟨p, s, -, -, -, rfl⟩ := fromNumpy_ok h
  intro e he
  obtain ⟨h1, h2, -⟩ := mem_buildGraph.1 he
  exact ⟨h1, h2⟩

/-- **C62**, the API: the score of the result is never negative. If it is zero then, whatever the shape of the network and the threshold,
the learned graph, the graph between the variables and the collapsed graph have no directed cycle. -/
theorem fromNumpy_acyclic (hwf : X.WF) (hd : SchemaDict x.schema) (h : fromNumpy minimize init fuel X x = .ok g) :
    0 ≤ g.score ∧ (g.score = 0 → g.Acyclic ∧ g.VarAcyclic ∧ g.collapsed.Acyclic) := by
  have hlay := (fromNumpy_layout hwf hd h).1
  have hlt := fromNumpy_edge_lt h
  refine ⟨(hFunc_zero_iff hlay g.params).1, fun h0 => ?_⟩
  have hno := (hFunc_zero_iff hlay g.params).2.1 h0
  have hvar : g.VarAcyclic := by
    intro u hu
    refine hno u (Relation.TransGen.mono ?_ u u hu)
    rintro u v ⟨e, he, a, ha, b, hb, rfl, rfl, hs, ht⟩
    refine ⟨a, ha, b, hb, rfl, rfl, e.src, hs, e.dst, ht, ?_⟩
    by_contra hn
    push Not at hn
    obtain ⟨p, s, -, -, -, rfl⟩ := fromNumpy_ok h
    obtain ⟨h1, h2, h3, h4, -⟩ := mem_buildGraph.1 he
    exact h4 (by rw [h3]; exact (adjacency_zero _ _ _ _ _ h1 h2 hn).1)
  refine ⟨hvar.acyclic hlay hlt, hvar, ?_⟩
  intro u hu
  refine hno u (Relation.TransGen.mono ?_ u u hu)
  rintro u v ⟨e, he, rfl, rfl⟩
  obtain ⟨p, s, hp, -, -, rfl⟩ := fromNumpy_ok h
  obtain ⟨h1, h2, h3, -⟩ := mem_ofMatrix.1 he
  obtain ⟨a, ha, ha'⟩ := hlay.var h1
  obtain ⟨b, hb, hb'⟩ := hlay.var h2
  rw [← ha', ← hb'] at h3
  obtain ⟨i, hi, j, hj, hne⟩ := ((collapse_blocks hlay _ ha hb).2 (adjacency_nonneg _ _ _)).2.1 h3
  refine ⟨a, ha, b, hb, ha', hb', i, hi, j, hj, ?_⟩
  by_contra hn
  push Not at hn
  exact hne (adjacency_zero _ _ _ _ _ (hlay.col_lt ha hi) (hlay.col_lt hb hj) hn).1

/-- **C42**: the warning is given exactly if the score stays above the tolerance although the penalty is below its limit. -/
theorem fromNumpy_warned (h : fromNumpy minimize init fuel X x = .ok g) (hmax : 0 < x.maxIter) :
    g.warned = true ↔ 1 / 10 ^ 8 < g.score ∧ g.rho < 10 ^ 16 := by
  obtain ⟨p, s, -, -, hs, rfl⟩ := fromNumpy_ok h
  have := ((fit_result hs).2.1 hmax).2
  change s.warned = true ↔ _
  rw [this]
  change ((_ : ℝ) : WithTop ℝ) < ((_ : ℝ) : WithTop ℝ) ∧ _ ↔ _
  rw [WithTop.coe_lt_coe]
  rfl

/-- **C78**: for a linear model (no hidden layers) and a positive threshold `t`, if there was no warning and the penalty has not reached
its limit, the learned graph has no directed cycle as soon as the tolerance is small enough for the number `n` of variables:
`C(n,k) k (t²/n)^k > 1e-8` for each cycle length `k ≤ n`. -/
theorem fromNumpy_threshold (hwf : X.WF) (hd : SchemaDict x.schema) (h : fromNumpy minimize init fuel X x = .ok g)
    (hlin : (hiddenUnits x.hidden).headD 0 = 0) (hmax : 0 < x.maxIter) (hw : g.warned = false) (hrho : g.rho < 10 ^ 16) {t : ℝ}
    (ht : 0 < t) (hthr : x.wThreshold = some t)
    (hk : ∀ k, 0 < k → k ≤ X.cols → (1 : ℝ) / 10 ^ 8 < X.cols.choose k * k * t ^ (2 * k) / (X.cols : ℝ) ^ k) :
    g.Acyclic ∧ g.VarAcyclic := by
  have hlay := (fromNumpy_layout hwf hd h).1
  have hlt := fromNumpy_edge_lt h
  have hs : g.score ≤ 1 / 10 ^ 8 := by
    by_contra hn
    push Not at hn
    have := (fromNumpy_warned h hmax).2 ⟨hn, hrho⟩
    rw [hw] at this; cases this
  have hno := hFunc_no_cycle hlay g.params t fun k h0 hn => lt_of_le_of_lt hs (hk k h0 hn)
  have hvar : g.VarAcyclic := by
    intro u hu
    refine hno u (Relation.TransGen.mono ?_ u u hu)
    rintro u v ⟨e, he, a, ha, b, hb, rfl, rfl, hs, hd⟩
    refine ⟨a, ha, b, hb, rfl, rfl, e.src, hs, e.dst, hd, ?_⟩
    obtain ⟨p, s, -, -, -, rfl⟩ := fromNumpy_ok h
    obtain ⟨-, -, h3, -, h5, -⟩ := mem_buildGraph.1 he
    change t ^ 2 ≤ squareWeights (archOf x p.data.cols) ((archOf x p.data.cols).net s.params) e.src e.dst
    have hdl : (archOf x p.data.cols).dims.length ≤ 2 := by
      unfold Arch.dims
      rw [if_neg]
      · simp
      · rw [not_not]; exact hlin
    rw [squareWeights_linear hdl _ (p.data.rows.map realRow), ← h3]
    exact pow_le_pow_left₀ ht.le (h5 t hthr) 2
  exact ⟨hvar.acyclic hlay hlt, hvar⟩

/-! ### Linear models -/

theorem linear_dims {a : Arch} (h : a.hidden.headD 0 = 0) : a.dims = [a.d, 1] := by
  unfold Arch.dims
  rw [if_neg (by rw [not_not]; exact h)]

theorem linear_forward {a : Arch} (h : a.hidden.headD 0 = 0) (w : List ℝ) (rows : List (ℕ → ℝ)) (y : ℕ → ℝ) (k : ℕ) :
    forward a (a.net w) y k = (∑ i ∈ Finset.range a.d, meanEffect a (a.net w) rows i k * y i) + biasAt (a.net w).bias k := by
  have hdims := linear_dims h
  have hnil : (a.net w).layers = [] := by
    rw [← List.length_eq_zero_iff, (a.net_layers w).1]
    unfold Arch.layerDims
    rw [hdims]; rfl
  have hm1 : a.m1 = 1 := a.m1_linear (by rw [hdims]; simp)
  unfold forward
  rw [hnil, List.foldl_nil]
  unfold firstLayer meanEffect
  have hd2 : a.dims.length ≤ 2 := by rw [hdims]; simp
  simp only [hm1, hd2, if_true, mul_one, add_zero]
  congr 1
  exact Finset.sum_congr rfl fun i _ => mul_comm _ _

theorem sum_edges (d : ℕ) (W : ℕ → ℕ → ℝ) (F : ℕ → ℕ → ℝ) (hF : ∀ i j, W i j = 0 → F i j = 0) :
    ((ofMatrix d W).edges.map fun e => F e.src e.dst).sum = ∑ i ∈ Finset.range d, ∑ j ∈ Finset.range d, F i j := by
  have h1 : ∀ l : List (ℕ × ℕ), ((l.filterMap fun c => if W c.1 c.2 ≠ 0 then some (⟨c.1, c.2, W c.1 c.2, "unknown"⟩ : Notears.Edge ℕ ℝ) else none).map
      fun e => F e.src e.dst).sum = (l.map fun c => F c.1 c.2).sum := by
    intro l
    induction l with
    | nil => rfl
    | cons c l ih =>
      rw [List.filterMap_cons, List.map_cons, List.sum_cons]
      by_cases hc : W c.1 c.2 = 0
      · simp only [hc, ne_eq, not_true_eq_false, if_false]
        rw [ih, hF _ _ hc, zero_add]
      · simp only [hc, ne_eq, not_false_eq_true, if_true, List.map_cons, List.sum_cons]
        rw [ih]
  unfold ofMatrix
  rw [h1]
  unfold Notears.cells
  have hr : ∀ (f : ℕ → ℝ) (n : ℕ), ((List.range n).map f).sum = ∑ i ∈ Finset.range n, f i := by
    intro f n
    induction n with
    | zero => rfl
    | succ n ih => rw [List.range_succ, List.map_append, List.sum_append, ih, Finset.sum_range_succ]; simp
  rw [← hr (fun i => ∑ j ∈ Finset.range d, F i j)]
  simp only [← hr]
  generalize List.range d = m
  have hl : ∀ l : List ℕ, ((l.flatMap fun i => m.map fun j => (i, j)).map fun c => F c.1 c.2).sum =
      (l.map fun i => (m.map (F i)).sum).sum := by
    intro l
    induction l with
    | nil => rfl
    | cons i l ih =>
      rw [List.flatMap_cons, List.map_append, List.sum_append, ih, List.map_cons, List.sum_cons, List.map_map]
      rfl
  exact hl m

theorem cutEdges_nonpos {thr : Option ℝ} (h : ∀ t, thr = some t → t ≤ 0) (es : List (Notears.Edge ℕ ℝ)) : cutEdges thr es = es := by
  unfold cutEdges
  cases thr with
  | none => rfl
  | some t =>
    simp only
    by_cases h0 : t ≠ 0
    · rw [if_pos h0, List.filter_eq_self]
      intro e _
      have := h t rfl
      have h2 := abs_nonneg e.weight
      rw [decide_eq_true_iff]
      exact not_lt.2 (this.trans h2)
    · rw [if_neg h0]

/-- **C80**: for a linear model without threshold the learned graph is the fitted model: the latent reconstruction of every column is
its `bias` plus the sum over its incoming edges of mean effect times the value of the source. -/
theorem fromNumpy_linear (h : fromNumpy minimize init fuel X x = .ok g) (hlin : (hiddenUnits x.hidden).headD 0 = 0)
    (hthr : ∀ t, x.wThreshold = some t → t ≤ 0) (y : ℕ → ℝ) (k : ℕ) (hk : k < g.arch.d) :
    forward g.arch (g.arch.net g.params) y k =
      ((g.edges.filter fun e => e.dst = k).map fun e => e.meanEffect * y e.src).sum + (g.bias k).getD 0 := by
  obtain ⟨p, s, -, -, -, rfl⟩ := fromNumpy_ok h
  set a := archOf x p.data.cols with ha
  have hlin' : a.hidden.headD 0 = 0 := hlin
  change forward a (a.net s.params) y k = _
  rw [linear_forward hlin' s.params (p.data.rows.map realRow)]
  congr 1
  have hz : ∀ i j, adjacency a (a.net s.params) (p.data.rows.map realRow) i j = 0 →
      (if j = k then meanEffect a (a.net s.params) (p.data.rows.map realRow) i j * y i else 0) = 0 := by
    intro i j hij
    split_ifs
    · have := meanEffect_le a (a.net s.params) (p.data.rows.map realRow) i j
      rw [hij] at this
      rw [abs_nonpos_iff.1 this, zero_mul]
    · rfl
  have := sum_edges a.d _ _ hz
  have hfil : ∀ l : List (LEdge ℕ), ((l.filter fun e => e.dst = k).map fun e => e.meanEffect * y e.src).sum =
      (l.map fun e => if e.dst = k then e.meanEffect * y e.src else 0).sum := by
    intro l
    induction l with
    | nil => rfl
    | cons e l ih =>
      by_cases he : e.dst = k
      · rw [List.filter_cons_of_pos (by simpa using he)]; simp [ih, he]
      · rw [List.filter_cons_of_neg (by simpa using he)]; simp [ih, he]
  rw [hfil]
  unfold buildGraph
  simp only [cutEdges_nonpos hthr, List.map_map]
  refine Eq.trans ?_ this.symm
  refine Finset.sum_congr rfl fun i _ => ?_
  rw [Finset.sum_ite_eq' , if_pos (Finset.mem_range.2 (show k < a.d from hk))]

/-- With hidden layers the attribute `bias` of a node is not about that node: it is the bias of the unit `k % m` of the feature
`k / m`, with `m` units in the first hidden layer. -/
theorem fromNumpy_bias (h : fromNumpy minimize init fuel X x = .ok g) (k : ℕ) :
    g.bias k = (g.arch.net g.params).bias.map (fun b => b.getD (k / g.arch.m1 * g.arch.m1 + k % g.arch.m1) 0) := by
  obtain ⟨p, s, -, -, -, rfl⟩ := fromNumpy_ok h
  rw [Nat.div_add_mod' k]
  rfl

/-! ### A hidden layer with a single unit -/

theorem layerNorm_one (eps : ℝ) (v : ℕ → ℝ) : layerNorm 1 eps v 0 = 0 := by
  simp [layerNorm]

theorem applyLayer_single (eps : ℝ) (j : ℕ) (l : Layer) (hl : l.inF = 1) (u v : ℕ → ℝ) : applyLayer eps j l u = applyLayer eps j l v := by
  funext b
  simp only [applyLayer, hl, Finset.sum_range_one, layerNorm_one]

/-- The reconstruction of a network with a hidden layer of a single unit does not depend on the data. -/
theorem forward_single (a : Arch) (w : List ℝ) (h0 : a.hidden.headD 0 ≠ 0) (h1 : 1 ∈ a.hidden) (y z : ℕ → ℝ) (j : ℕ) :
    forward a (a.net w) y j = forward a (a.net w) z j := by
  have hex : ∃ l ∈ (a.net w).layers, l.inF = 1 := by
    obtain ⟨k, hk, hk1⟩ := List.mem_iff_getElem.1 h1
    have hlen : k < (a.net w).layers.length := by
      rw [(a.net_layers w).1]
      unfold Arch.layerDims Arch.dims
      rw [if_pos h0]
      simp; omega
    have := (a.net_layers w).2 k _ (List.getElem?_eq_getElem hlen)
    refine ⟨_, List.getElem_mem hlen, ?_⟩
    unfold Arch.layerDims Arch.dims at this
    rw [if_pos h0] at this
    simp only [List.tail_cons, List.dropLast_concat] at this
    rw [List.getElem?_zip_eq_some] at this
    have h2 := this.1
    rw [List.getElem?_eq_getElem hk, hk1, Option.some.injEq] at h2
    exact h2.symm
  unfold forward
  generalize firstLayer a (a.net w) y j = u
  generalize firstLayer a (a.net w) z j = v
  generalize (a.net w).layers = ls at hex
  congr 1
  induction ls generalizing u v with
  | nil => simp at hex
  | cons l ls ih =>
    rw [List.foldl_cons, List.foldl_cons]
    by_cases hl : l.inF = 1
    · rw [applyLayer_single _ _ _ hl u v]
    · refine ih _ _ ?_
      obtain ⟨l', hl', h1'⟩ := hex
      rcases List.mem_cons.1 hl' with rfl | hl'
      · exact absurd h1' hl
      · exact ⟨l', hl', h1'⟩

theorem adjacency_single (a : Arch) (w : List ℝ) (h0 : a.hidden.headD 0 ≠ 0) (h1 : 1 ∈ a.hidden) (rows : List (ℕ → ℝ)) (i j : ℕ) :
    adjacency a (a.net w) rows i j = 0 := by
  have hd : ∀ y i j, partialDeriv a (a.net w) y i j = 0 := by
    intro y i j
    unfold partialDeriv
    have : (fun t => forward a (a.net w) (Function.update y i t) j) = fun _ => forward a (a.net w) y j := by
      funext t; exact forward_single a w h0 h1 _ _ _
    rw [this]; simp
  unfold adjacency
  rw [if_neg]
  · simp only [hd, abs_zero]
    have : ∀ l : List (ℕ → ℝ), (l.map fun _ => (0 : ℝ)).sum = 0 := by
      intro l
      induction l with
      | nil => rfl
      | cons y l ih => rw [List.map_cons, List.sum_cons, ih, zero_add]
    rw [this, zero_div]
  · unfold Arch.dims
    rw [if_pos h0]
    have : a.hidden.length ≠ 0 := by
      intro hn
      rw [List.length_eq_zero_iff.1 hn] at h0; exact h0 rfl
    simp only [List.length_cons, List.length_append, List.length_nil]
    omega

/-- A network with a hidden layer of a single unit learns nothing: whatever the data and the optimiser, the learned and the collapsed
graph have no edges. -/
theorem fromNumpy_single_unit (hwf : X.WF) (hd : SchemaDict x.schema) (h : fromNumpy minimize init fuel X x = .ok g)
    (h0 : (hiddenUnits x.hidden).headD 0 ≠ 0) (h1 : 1 ∈ hiddenUnits x.hidden) : g.edges = [] ∧ g.collapsed.edges = [] := by
  have hlay := (fromNumpy_layout hwf hd h).1
  obtain ⟨p, s, hp, -, -, rfl⟩ := fromNumpy_ok h
  have hz := adjacency_single (archOf x p.data.cols) s.params h0 h1 (p.data.rows.map realRow)
  refine ⟨?_, ?_⟩
  · refine List.eq_nil_iff_forall_not_mem.2 fun e he => ?_
    obtain ⟨-, -, h3, h4, -⟩ := mem_buildGraph.1 he
    exact h4 (by rw [h3]; exact hz _ _)
  · refine List.eq_nil_iff_forall_not_mem.2 fun e he => ?_
    obtain ⟨h1, h2, h3, -⟩ := mem_ofMatrix.1 he
    obtain ⟨u, hu, hu'⟩ := hlay.var h1
    obtain ⟨v, hv, hv'⟩ := hlay.var h2
    rw [← hu', ← hv'] at h3
    obtain ⟨a, ha, b, hb, hne⟩ := ((collapse_blocks hlay _ hu hv).2 (adjacency_nonneg _ _ _)).2.1 h3
    exact hne (hz _ _)

end

end Verif.Pytorch
