import Verif.Sklearn.PropsLinear
import Verif.Pytorch.IdentifyBias

/-!
# C136: `DAGRegressor` recovers linear models with errors of equal size
-/

namespace Verif.Sklearn

open Verif.Str Verif.Pytorch Finset
open Verif.Notears (Tabu Minimizer RespectsBounds NotWorse EqualErrors AcyclicWeights TabuNamed)

/-! ### Specification -/

/-- The data `fit` gets: the features and, as last column, the target. -/
def Call.data (c : Call) (h : Heap) : Frame :=
  ⟨c.cols.length + 1, List.zipWith (fun r v => r ++ [v]) (h.tables.getD c.x []) (h.series.getD c.y [])⟩

/-- The edges and nodes excluded, by name. -/
def Call.tabu (c : Call) (e : Est) (h : Heap) : Tabu Str :=
  ⟨e.params.tabuEdges, parentsValue (e.params.tabuParents.map fun r => h.lists.getD r []) e.params.dependentTarget (targetName c.yname),
    e.params.tabuChildren⟩

/-! ### Lemmas -/

theorem forall₂_right {α β : Type} {R : α → β → Prop} {l : List α} {l' : List β} (h : List.Forall₂ R l l') {q : β} (hq : q ∈ l') :
    ∃ p ∈ l, R p q := by
  induction h with
  | nil => cases hq
  | cons hr _ ih =>
    rcases List.mem_cons.1 hq with rfl | hq
    · exact ⟨_, List.mem_cons_self, hr⟩
    · obtain ⟨p, hp, hr⟩ := ih hq
      exact ⟨p, List.mem_cons_of_mem _ hp, hr⟩

section
variable {ext : Ext} {e : Est} {h : Heap} {c : Call} {f : Fit}

/-- What is known of a fit without hidden layers if all columns are continuous. -/
theorem fits_cont (horder : ∀ es, (ext.order es).Perm es) (hw : c.WF e h) (hf : Fits ext e h c f)
    (hkey : ∀ r, e.params.schema = some r → targetName c.yname ∉ (h.schemas.getD r []).map Prod.fst)
    (hns : NoSuffix (c.cols ++ [targetName c.yname])) (hfeat : ∀ p ∈ usedSchema e h c.cols, p.2 = .cont)
    (htarget : e.targetType = some .cont) (hlin : (hiddenUnits e.params.hidden).headD 0 = 0) (hstd : e.params.standardize = false) :
    ∃ (g : Learned ℕ) (x : Args ℕ), (c.data h).WF ∧ SchemaDict x.schema ∧ AllContinuous (c.data h) x.schema ∧
      x.hidden = e.params.hidden ∧ x.useBias = e.params.fitIntercept ∧ x.lasso = e.params.alpha ∧ x.ridge = e.params.beta ∧
      x.maxIter = e.params.maxIter ∧ x.wThreshold = some e.params.threshold ∧
      TabuNamed (c.cols ++ [targetName c.yname]) (c.tabu e h) x.tabu ∧
      fromNumpy ext.minimize ext.init ext.fuel (c.data h) x = .ok g ∧ f.graph.arch = g.arch ∧ f.graph.encs = g.encs ∧
      f.graph.params = g.params ∧
      (e.params.enforceDag = false → ∀ k < c.cols.length,
        (coef f).getD k 0 = if e.params.threshold ≤ |weightOf g.arch.d g.params k c.cols.length| then
          weightOf g.arch.d g.params k c.cols.length else 0) ∧
      ∀ (isInt : Bool) (X : List (List ℚ)), (∀ r ∈ X, r.length = c.cols.length) →
        ∃ ys, basePredict { e with fitted := some f } isInt X = .ok ys ∧
          List.Forall₂ (fun r y => ∀ row : ℕ → ℝ, (∀ k < c.cols.length, row k = realRow r k) → row c.cols.length = 0 →
            y = [forward g.arch (g.arch.net g.params) row c.cols.length]) X ys := by
  have hplain : ∀ p ∈ usedSchema e h c.cols, p.2 ≠ .ord := fun p hp hh => by rw [hfeat p hp] at hh; cases hh
  obtain ⟨t, t1, t2, t3, -, -, -, -, t8⟩ := fits_predict horder hw hf hkey hns hplain
    (by rw [htarget]; rintro (hh | hh) <;> cases hh) (by rw [htarget]; intro hh; cases hh)
  obtain ⟨sc, a, g', h1, h2, h3, h4, h5, h6, -, -, hssY, h7, h8, h9, -⟩ := fits_graph horder hw hf
  have ha : a = .cont := by rw [htarget] at h1; exact (Option.some.inj h1).symm
  rw [hstd] at h2
  have hsc : sc = ⟨h.tables.getD c.x [], h.series.getD c.y [], [], [], none⟩ := by
    unfold scaleValues at h2
    rw [if_neg (by simp)] at h2
    exact (Except.ok.inj h2).symm
  subst hsc
  obtain ⟨es, t', e1, e2, e3, e4, e5⟩ := fits_target_last horder hw hf (by rw [h6]; exact hkey)
  have hnc : NoClash (c.cols ++ [f.target]) f.graph.encs := by rw [h6]; exact hns.noClash _
  have htm' : t' ∈ f.graph.encs := by rw [e1]; simp
  have htt : t' = t := by
    have := fits_node_type horder hw hf hnc htm' e2
    rw [t1] at this
    exact (Option.some.inj this).symm
  rw [htt] at e1 e2 e3 e4 htm'
  clear htt t'
  have hall : ∀ d ∈ f.graph.encs, d = .cont d.idx := by
    intro d hd
    have hda : d.alias = .cont := by
      rw [e1] at hd
      rcases List.mem_append.1 hd with hd | hd
      · have : ((c.cols ++ [f.target]).getD d.idx [], d.alias) ∈ usedSchema e h c.cols := by
          unfold usedSchema
          rw [← e5]
          exact List.mem_map.2 ⟨d, hd, rfl⟩
        exact hfeat _ this
      · rw [List.mem_singleton] at hd
        rw [htarget] at e3
        rw [hd]
        exact Option.some.inj e3
    cases d with
    | cont i => rfl
    | bin i => cases hda
    | poiss i => cases hda
    | cat i g cats => cases hda
    | ord i cats counts => cases hda
  have hgarch : f.graph.arch = g'.arch := by rw [h4]; split_ifs <;> rfl
  have hgencs : f.graph.encs = g'.encs := by rw [h4]; split_ifs <;> rfl
  have hgparams : f.graph.params = g'.params := by rw [h4]; split_ifs <;> rfl
  obtain ⟨g0, x0, nm, F⟩ := fromPandas_facts horder h7 h8 (by intro l hl; cases hl; exact h9) h3
  have hdata : (joined c.cols f.target (h.tables.getD c.x []) (h.series.getD c.y [])).values = c.data h := by
    unfold Table.values joined Call.data
    simp
  have hlearn := F.learned
  rw [hdata] at hlearn h8
  have hx0 := F.same
  have harch : f.graph.arch = g0.arch := hgarch.trans F.arch
  have hencs : f.graph.encs = g0.encs := hgencs.trans F.encs
  have hparams : f.graph.params = g0.params := hgparams.trans F.params
  have hwT : x0.wThreshold = some e.params.threshold := by rw [hx0]; rfl
  have hhid : x0.hidden = e.params.hidden := by rw [hx0]; rfl
  have hlin0 : (hiddenUnits x0.hidden).headD 0 = 0 := by rw [hhid]; exact hlin
  have hcont : AllContinuous (c.data h) x0.schema := by
    intro q hq
    have hnamed := F.named
    unfold SchemaNamed at hnamed
    cases hs : x0.schema with
    | none => rw [hs] at hnamed; cases hnamed
    | some s =>
      rw [hs] at hnamed hq
      cases hnamed with
      | some hrel =>
        change q ∈ s at hq
        obtain ⟨p, hp, -, hq2⟩ := forall₂_right hrel hq
        rw [hq2]
        unfold dictSet at hp
        split_ifs at hp with hmem
        · obtain ⟨p', hp', rfl⟩ := List.mem_map.1 hp
          split_ifs
          · exact ha
          · exact hfeat p' hp'
        · rcases List.mem_append.1 hp with hp | hp
          · exact hfeat p hp
          · rw [List.mem_singleton.1 hp]; exact ha
  refine ⟨g0, x0, h8, F.dict, hcont, hhid, by rw [hx0]; rfl, by rw [hx0]; rfl, by rw [hx0]; rfl, by rw [hx0]; rfl, hwT, ?_, hlearn,
    harch, hencs, hparams, ?_, ?_⟩
  · rw [← h6]
    have := F.tabu
    unfold Call.tabu
    rw [← h6]
    exact this
  · intro hdag k hk
    rw [hdag] at h4
    simp only [Bool.false_eq_true, if_false] at h4
    have hncg : NoClash (c.cols ++ [f.target]) g0.encs := by rw [← hencs]; exact hnc
    have hd : g0.arch.d = c.cols.length + 1 := by
      rw [(fromNumpy_cont F.dict hcont hlearn).2.2.2.1]; rfl
    have hname : ∀ k (hk : k < c.cols.length + 1), (c.cols ++ [f.target])[k]? = some (nm k) := by
      intro k hk
      obtain ⟨d, hd', hi⟩ := F.layout.var (u := k) (by change k < (c.cols ++ [f.target]).length; simp; omega)
      have hd'' := hall d (by rw [hencs]; exact hd')
      obtain ⟨v, hv, hh⟩ := F.names d hd' 0 k (by rw [hd'', hi]; rfl)
      rw [hi] at hv
      rw [hh]
      exact hv
    have hnmt : nm c.cols.length = f.target := by
      have := hname c.cols.length (by omega)
      simpa using this.symm
    have hnmc : c.cols[k]? = some (nm k) := by
      have := hname k (by omega)
      rwa [List.getElem?_append_left hk] at this
    have hinj : ∀ k l, k < c.cols.length + 1 → l < c.cols.length + 1 → nm k = nm l → k = l := by
      intro k l hk hl heq
      exact F.inj hncg k l (by rw [hd]; exact hk) (by rw [hd]; exact hl) heq
    have hedges : f.graph.edges.Perm (g0.edges.map fun e => ⟨nm e.src, nm e.dst, e.weight, e.meanEffect, "learned"⟩) := by
      rw [h4]; exact F.edges hncg
    have hmem := fromNumpy_linear_edges F.dict hcont hlin0 hlearn
    rw [hwT] at hmem
    simp only [Option.some.injEq, forall_eq'] at hmem
    have hal' := (edgesToNode_aligned f LEdge.meanEffect f.target (fits_pairs horder hw hf)).1
    rw [h5] at hal'
    obtain ⟨v, hv, hev⟩ := hal' k (nm k) hnmc
    have hcv : (coef f).getD k 0 = v := by
      rw [List.getD_eq_getElem?_getD]
      unfold coef
      rw [hv]; rfl
    rw [hcv]
    rcases hev with ⟨d, hd', q1, q2, q3⟩ | ⟨hno, hv0⟩
    · rw [hedges.mem_iff] at hd'
      obtain ⟨d0, hd0, rfl⟩ := List.mem_map.1 hd'
      obtain ⟨r1, r2, r3, -, r5, r6, -⟩ := (hmem d0).1 hd0
      simp only at q1 q2 q3
      change d0.src < c.cols.length + 1 at r1
      change d0.dst < c.cols.length + 1 at r2
      have s1 := hinj _ _ r1 (by omega) q1
      have s2 := hinj _ _ r2 (by omega) (q2.trans hnmt.symm)
      rw [s1, s2] at r3 r6
      rw [q3, r6, if_pos (r3 ▸ r5)]
    · rw [hv0]
      split_ifs with hthr
      · by_contra hne
        refine hno ⟨nm k, nm c.cols.length, |weightOf g0.arch.d g0.params k c.cols.length|,
          weightOf g0.arch.d g0.params k c.cols.length, "learned"⟩ ?_ ⟨rfl, hnmt⟩
        rw [hedges.mem_iff]
        exact List.mem_map.2 ⟨⟨k, c.cols.length, |weightOf g0.arch.d g0.params k c.cols.length|,
          weightOf g0.arch.d g0.params k c.cols.length, "learned"⟩, (hmem _).2 ⟨by change k < c.cols.length + 1; omega, Nat.lt_succ_self _, rfl,
            abs_ne_zero.2 (Ne.symm hne), hthr, rfl, rfl⟩, rfl⟩
      · rfl
  · intro isInt X hX
    obtain ⟨ys, y1, y2⟩ := (t8 isInt X hX).1 (by
      intro r _ i cc hcc
      constructor <;> (intro hp; have := hfeat _ hp; cases this))
    refine ⟨ys, y1, ?_⟩
    have hall2 : List.Forall₂ (fun r y => r ∈ X ∧ PredictionOf e f t isInt r y) X ys := by
      have : ∀ (X' : List (List ℚ)) (Y : List (List ℝ)), List.Forall₂ (PredictionOf e f t isInt) X' Y → (∀ r ∈ X', r ∈ X) →
          List.Forall₂ (fun r y => r ∈ X ∧ PredictionOf e f t isInt r y) X' Y := by
        intro X' Y hXY
        induction hXY with
        | nil => intro _; exact .nil
        | cons hr _ ih =>
          intro hmem
          exact .cons ⟨hmem _ List.mem_cons_self, hr⟩ (ih fun r hr => hmem r (List.mem_cons_of_mem _ hr))
      exact this X ys y2 fun _ h => h
    refine hall2.imp ?_
    rintro r y ⟨hrX, z, hz1, hz2, rfl⟩ row hrow hlast
    have hun : ∀ a, unscale e f a = a := fun a => by unfold unscale; rw [hstd]
    have hir : inputRow e f isInt r = r ++ [0] := by unfold inputRow; rw [hstd]; rfl
    have hz : ∀ k < c.cols.length + 1, z.getD k 0 = (r ++ [0]).getD k 0 := by
      intro k hk
      have hmem : k ∈ (es ++ [t]).map Enc.idx := e4.idx.mem_iff.2 (List.mem_range.2 hk)
      obtain ⟨d, hd', hi⟩ := List.mem_map.1 hmem
      rw [← e1] at hd'
      have hd2 := hz2 d hd'
      rw [hall d hd', hir, hi] at hd2
      change z[k]? = (r ++ [0])[k]? at hd2
      rw [List.getD_eq_getElem?_getD, List.getD_eq_getElem?_getD, hd2]
    have hd : g0.arch.d = c.cols.length + 1 := by
      rw [(fromNumpy_cont F.dict hcont hlearn).2.2.2.1]; rfl
    have hah : g0.arch.hidden.headD 0 = 0 := by rw [(fromNumpy_cont F.dict hcont hlearn).2.2.2.1]; exact hlin0
    have hfw : forward g0.arch (g0.arch.net g0.params) (realRow z) c.cols.length =
        forward g0.arch (g0.arch.net g0.params) row c.cols.length := by
      rw [linear_forward hah g0.params [], linear_forward hah g0.params [], hd]
      congr 1
      refine Finset.sum_congr rfl fun k hk => ?_
      congr 1
      change ((z.getD k 0 : ℚ) : ℝ) = _
      rw [hz k (Finset.mem_range.1 hk)]
      by_cases hk' : k < c.cols.length
      · rw [hrow k hk', List.getD_eq_getElem?_getD, List.getElem?_append_left (by rw [hX r hrX]; exact hk'),
          ← List.getD_eq_getElem?_getD]
        rfl
      · have : k = c.cols.length := by have := Finset.mem_range.1 hk; omega
        rw [this, hlast, List.getD_eq_getElem?_getD, List.getElem?_append_right (by rw [hX r hrX]), hX r hrX]
        simp
    rw [harch, hparams, hall t htm', e2]
    change [unscale e f (forward g0.arch (g0.arch.net g0.params) (realRow z) c.cols.length)] = _
    rw [hun, hfw]

end

/-! ### Theorem -/

/-- **C136**: if the features and the target (the last column) follow acyclic linear equations with the weights `V` whose errors are
nearly uncorrelated and nearly of the same size, the penalties are small, the optimiser does not miss these equations and the final score
is small, then a `DAGRegressor` for continuous columns without hidden layers has as coefficients nearly the weights for the target, and
its predictions are nearly those of the true equation. -/
theorem fits_recovers {d : ℕ} {V : ℕ → ℕ → ℝ} {ε : ℝ} (hV : AcyclicWeights (d + 1) V) (hε : 0 < ε) :
    ∃ δ > 0, ∀ (ext : Ext) (e : Est) (h : Heap) (c : Call) (f : Fit) (v : ℝ),
      (∀ es, (ext.order es).Perm es) → c.WF e h → Fits ext e h c f → c.cols.length = d →
      (∀ r, e.params.schema = some r → targetName c.yname ∉ (h.schemas.getD r []).map Prod.fst) →
      NoSuffix (c.cols ++ [targetName c.yname]) → (∀ p ∈ usedSchema e h c.cols, p.2 = .cont) → e.targetType = some .cont →
      (hiddenUnits e.params.hidden).headD 0 = 0 → e.params.standardize = false → 0 < v →
      EqualErrors ((c.data h).real e.params.fitIntercept) V v (δ * v) → RespectsBounds ext.minimize → e.params.maxIter ≠ 0 →
      0 ≤ e.params.alpha → 0 ≤ e.params.beta → penalty (d + 1) e.params.alpha e.params.beta V ≤ δ * v →
      (∀ t, TabuNamed (c.cols ++ [targetName c.yname]) (c.tabu e h) t →
        NotWorse (torchProblem f.graph.arch f.graph.encs ((c.data h).rows.map realRow) e.params.alpha e.params.beta) ext.minimize
          (boundsOf f.graph.arch t) (linearParams (d + 1) e.params.fitIntercept V ((c.data h).intercept V))) →
      f.graph.score ≤ δ →
      (e.params.enforceDag = false → (e.params.threshold ≤ 0 ∨ ∀ k < d, V k d ≠ 0 → e.params.threshold + ε ≤ |V k d|) →
        ∀ k < d, |(coef f).getD k 0 - V k d| < ε ∧ (ε ≤ e.params.threshold → ((coef f).getD k 0 = 0 ↔ V k d = 0))) ∧
      ∀ (isInt : Bool) (X : List (List ℚ)), (∀ r ∈ X, r.length = d) →
        ∃ ys, basePredict { e with fitted := some f } isInt X = .ok ys ∧
          List.Forall₂ (fun r y => ∃ p : ℝ, y = [p] ∧
            |p - ((if e.params.fitIntercept then (c.data h).intercept V d else 0) + ∑ k ∈ range d, V k d * realRow r k)| ≤
              ε * (√v + ∑ k ∈ range d, |realRow r k - if e.params.fitIntercept then (c.data h).mean k else 0|)) X ys := by
  obtain ⟨δ₁, hδ₁, hn⟩ := fromNumpy_near hV hε
  obtain ⟨δ₂, hδ₂, hp⟩ := fromNumpy_predicts hV hε
  have hδ : 0 < min δ₁ δ₂ := lt_min hδ₁ hδ₂
  refine ⟨_, hδ, ?_⟩
  have hle₁ := min_le_left δ₁ δ₂
  have hle₂ := min_le_right δ₁ δ₂
  generalize min δ₁ δ₂ = δ at hδ hle₁ hle₂ ⊢
  intro ext e h c f v horder hw hf hd hkey hns hfeat htarget hlin hstd hv hE hm hmax halpha hbeta hpen hopt hsc
  subst hd
  obtain ⟨g, x, hwf, hsd, hcont, x1, x2, x3, x4, x5, x6, x7, hlearn, hga, hge, hgp, hcoef, hpred⟩ :=
    fits_cont horder hw hf hkey hns hfeat htarget hlin hstd
  have hopt' := hopt _ x7
  rw [hga, hge, ← x3, ← x4, ← x2] at hopt'
  have hsc' : g.score ≤ δ := by
    unfold Learned.score at hsc ⊢
    rw [hga, hge, hgp] at hsc
    exact hsc
  rw [← x2] at hE
  rw [← x3, ← x4] at hpen
  have hv1 := mul_le_mul_of_nonneg_right hle₁ hv.le
  have hv2 := mul_le_mul_of_nonneg_right hle₂ hv.le
  obtain ⟨n1, -⟩ := hn (c.data h) v ext.minimize ext.init ext.fuel x g hwf rfl hsd hcont (by rw [x1]; exact hlin) hv (hE.mono hv1) hm hlearn
    (by rw [x5]; exact hmax) (by rw [x3]; exact halpha) (by rw [x4]; exact hbeta) (hpen.trans hv1) hopt' (hsc'.trans hle₁)
  have n2 := hp (c.data h) v ext.minimize ext.init ext.fuel x g hwf rfl hsd hcont (by rw [x1]; exact hlin) hv (hE.mono hv2) hm hlearn
    (by rw [x5]; exact hmax) (by rw [x3]; exact halpha) (by rw [x4]; exact hbeta) (hpen.trans hv2) hopt' (hsc'.trans hle₂)
  constructor
  · intro hdag hthr k hk
    rw [hcoef hdag k hk]
    have hclose := n1 k (by omega) c.cols.length (by omega)
    have hbig : V k c.cols.length ≠ 0 → e.params.threshold ≤ |weightOf g.arch.d g.params k c.cols.length| := by
      intro hne
      rcases hthr with h0 | h0
      · exact h0.trans (abs_nonneg _)
      · have h1 := h0 k hk hne
        have h2 := abs_sub_abs_le_abs_sub (V k c.cols.length) (weightOf g.arch.d g.params k c.cols.length)
        rw [abs_sub_comm] at hclose
        linarith
    by_cases hV0 : V k c.cols.length = 0
    · rw [hV0] at hclose ⊢
      rw [sub_zero] at hclose ⊢
      split_ifs with hif
      · refine ⟨hclose, fun hεt => ?_⟩
        linarith
      · rw [abs_zero]
        exact ⟨hε, fun _ => by simp⟩
    · rw [if_pos (hbig hV0)]
      refine ⟨hclose, fun hεt => ?_⟩
      have : weightOf g.arch.d g.params k c.cols.length ≠ 0 := by
        have h1 := hbig hV0
        exact abs_pos.1 (by linarith)
      exact ⟨fun h0 => absurd h0 this, fun h0 => absurd h0 hV0⟩
  · intro isInt X hX
    obtain ⟨ys, y1, y2⟩ := hpred isInt X hX
    refine ⟨ys, y1, y2.imp ?_⟩
    intro r y hy
    let row : ℕ → ℝ := fun k => if k < c.cols.length then realRow r k else 0
    have hrow : ∀ k < c.cols.length, row k = realRow r k := fun k hk => if_pos hk
    have hlast : row c.cols.length = 0 := if_neg (lt_irrefl _)
    refine ⟨_, hy row hrow hlast, ?_⟩
    have hb := n2 row c.cols.length (by omega)
    rw [x2] at hb
    have heq : (c.data h).equation e.params.fitIntercept V row c.cols.length =
        (if e.params.fitIntercept then (c.data h).intercept V c.cols.length else 0) +
          ∑ k ∈ range c.cols.length, V k c.cols.length * realRow r k := by
      unfold Frame.equation
      change _ + ∑ k ∈ range (c.cols.length + 1), _ = _
      rw [Finset.sum_range_succ, hlast, mul_zero, add_zero]
      congr 1
      exact Finset.sum_congr rfl fun k hk => by rw [hrow k (Finset.mem_range.1 hk)]
    have hdist : (c.data h).distance e.params.fitIntercept row c.cols.length =
        ∑ k ∈ range c.cols.length, |realRow r k - if e.params.fitIntercept then (c.data h).mean k else 0| := by
      unfold Frame.distance
      rw [Finset.sum_filter]
      change ∑ k ∈ range (c.cols.length + 1), _ = _
      rw [Finset.sum_range_succ, if_neg (by simp), add_zero]
      refine Finset.sum_congr rfl fun k hk => ?_
      have hk' := Finset.mem_range.1 hk
      rw [if_pos (by omega), hrow k hk']
    rw [heq, hdist] at hb
    exact hb

end Verif.Sklearn
