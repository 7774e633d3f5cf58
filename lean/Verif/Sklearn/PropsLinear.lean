import Verif.Sklearn.PropsCoef

/-!
# Intercepts, and the prediction as a generalised linear model (C67, C82)
-/

namespace Verif.Sklearn

open Verif.Str Verif.Pytorch
open Verif.Notears (Tabu Minimizer RespectsBounds Permitted mem_ofMatrix)

/-! ### Specification -/

/-- The inverse link functions of the types with one column. -/
noncomputable def linkOf : Alias → ℝ → ℝ
  | .bin, a => 1 / (1 + Real.exp (-a))
  | .poiss, a => Real.exp a
  | _, a => a

/-! ### Lemmas -/

theorem mapM_keyError {α β : Type} {F : α → Except Err β} {l : List α} (h1 : ∃ a ∈ l, F a = .error .keyError)
    (h2 : ∀ a ∈ l, ∀ e, F a = .error e → e = .keyError) : l.mapM F = .error .keyError := by
  induction l with
  | nil => obtain ⟨a, ha, -⟩ := h1; simp at ha
  | cons a l ih =>
    rw [List.mapM_cons]
    cases ha : F a with
    | error e => rw [h2 a List.mem_cons_self e ha]; rfl
    | ok b =>
      rw [ih ?_ fun a ha => h2 a (List.mem_cons_of_mem _ ha)]
      · rfl
      · obtain ⟨a', ha', hh⟩ := h1
        rcases List.mem_cons.1 ha' with rfl | ha'
        · rw [ha] at hh; cases hh
        · exact ⟨a', ha', hh⟩

section
variable {ext : Ext} {e : Est} {h : Heap} {c : Call} {f : Fit}

/-- The intercepts of a classifier for `n` classes: one for two classes; one for each class if the target is categorical. For an ordinal
target with more than two classes reading them raises a `KeyError`. -/
theorem fit_class_intercepts (horder : ∀ es, (ext.order es).Perm es) (hw : c.WF e h) (hf : Fits ext e h c f)
    (hkey : ∀ r, e.params.schema = some r → targetName c.yname ∉ (h.schemas.getD r []).map Prod.fst)
    (hns : NoSuffix (c.cols ++ [targetName c.yname])) (hcat : ∀ p ∈ usedSchema e h c.cols, p.2 ≠ .cat) :
    clfIntercept f 2 = .ok [(f.graph.bias f.target).getD 0] ∧
    (∀ i g cats, f.graph.distType f.target = some (.cat i g cats) → 2 < cats.length →
      clfIntercept f cats.length = .ok ((List.range cats.length).map fun m => (f.graph.bias (columnName f.target m)).getD 0)) ∧
    (e.targetType = some .ord → ∀ n, 2 < n → clfIntercept f n = .error .keyError) := by
  obtain ⟨sc, a, g, -, -, -, -, -, h6, -, -, -, h7, -⟩ := fits_graph horder hw hf
  obtain ⟨es, t, e1, e2, e3, e4, -⟩ := fits_target_last horder hw hf (by rw [h6]; exact hkey)
  have hnode := fits_nodes horder hw hf
  have htm : t ∈ f.graph.encs := by rw [e1]; simp
  have hlast : (c.cols ++ [f.target])[t.idx]? = some f.target := by rw [e2]; simp
  have htc : t.cols.length ≠ 0 := by
    intro h0
    have := e4.head t (by simp)
    rw [List.length_eq_zero_iff.1 h0] at this
    cases this
  have hin : ∀ m < t.cols.length, columnName f.target m ∈ f.graph.nodes := fun m hm => (hnode _).2 ⟨t, htm, f.target, m, hm, hlast, rfl⟩
  have hnt := fits_node_type horder hw hf (by rw [h6]; exact hns.noClash _) htm e2
  refine ⟨?_, ?_, ?_⟩
  · unfold clfIntercept
    rw [if_pos rfl]
    unfold interceptOf
    rw [if_pos (show f.target ∈ f.graph.nodes from hin 0 (by omega))]
    rfl
  · intro i g' cats hd hn
    rw [hnt] at hd
    cases hd
    obtain ⟨sc', -, hl, -⟩ := fits_transform horder hw hf
    have hgl : g'.length = cats.length := (hl _ htm).2.1
    unfold clfIntercept
    rw [if_neg (by omega)]
    refine mapM_total fun m hm => ?_
    unfold interceptOf
    rw [if_pos]
    · rfl
    · refine hin m ?_
      change m < g'.length
      rw [hgl]; exact List.mem_range.1 hm
  · intro hord n hn
    rw [hord] at e3
    have ht1 : t.cols.length = 1 := by
      cases t with
      | cat i g cats => cases e3
      | _ => rfl
    unfold clfIntercept
    rw [if_neg (by omega)]
    refine mapM_keyError ⟨1, List.mem_range.2 (by omega), ?_⟩ ?_
    · unfold interceptOf
      rw [if_neg]
      rw [hnode]
      rintro ⟨d, hd, v, m, hm, hv, heq⟩
      have hd1 : d.cols.length = 1 := by
        by_cases hi : d.idx = c.cols.length
        · have : v = f.target := by rw [hi] at hv; simpa using hv.symm
          rw [e1] at hd
          rcases List.mem_append.1 hd with hd | hd
          · exfalso
            have hnd := e4.idx.nodup_iff.2 List.nodup_range
            rw [List.map_append, List.nodup_append] at hnd
            exact hnd.2.2 d.idx (List.mem_map_of_mem hd) t.idx (by simp) (by rw [hi, e2])
          · rw [List.mem_singleton] at hd
            rw [hd]; exact ht1
        · exact feature_single horder hw hf hcat d hd hi
      have hm0 : m = 0 := by omega
      rw [hm0] at heq
      have hv' : columnName f.target 1 = v := heq
      rw [← h6] at hns
      exact hns f.target (by simp) 1 (by omega) (by rw [hv']; exact List.mem_of_getElem? hv)
    · intro m _ err herr
      unfold interceptOf at herr
      split_ifs at herr
      · cases herr; rfl

/-- **C82**: without hidden layers, threshold and `enforce_dag`, and with continuous, binary and count features, the prediction is that
of a generalised linear model with the reported coefficients and intercept: the inverse link of the intercept plus the sum of
coefficients times features (standardised features and a standardised target if `standardize=True`). -/
theorem fits_linear (horder : ∀ es, (ext.order es).Perm es) (hw : c.WF e h) (hf : Fits ext e h c f)
    (hkey : ∀ r, e.params.schema = some r → targetName c.yname ∉ (h.schemas.getD r []).map Prod.fst)
    (hns : NoSuffix (c.cols ++ [targetName c.yname])) (hfeat : ∀ p ∈ usedSchema e h c.cols, p.2 = .cont ∨ p.2 = .bin ∨ p.2 = .poiss)
    (htarget : e.targetType = some .cont ∨ e.targetType = some .bin ∨ e.targetType = some .poiss)
    (hlin : (hiddenUnits e.params.hidden).headD 0 = 0) (hthr : e.params.threshold ≤ 0) (hdag : e.params.enforceDag = false) :
    ∃ a b, e.targetType = some a ∧ interceptOf f f.target = .ok b ∧
      ∀ (isInt : Bool) (X : List (List ℚ)), (∀ r ∈ X, r.length = c.cols.length) →
        (∀ r ∈ X, KnownRow c.cols (usedSchema e h c.cols) (h.tables.getD c.x []) r) →
        ∃ ys, basePredict { e with fitted := some f } isInt X = .ok ys ∧
          List.Forall₂ (fun r y => y = [unscale e f (linkOf a ((∑ k ∈ Finset.range c.cols.length,
            (coef f).getD k 0 * (((inputRow e f isInt r).getD k 0 : ℚ) : ℝ)) + b))]) X ys := by
  have hplain : ∀ p ∈ usedSchema e h c.cols, p.2 ≠ .ord := by
    intro p hp hh
    rcases hfeat p hp with h | h | h <;> rw [hh] at h <;> cases h
  have hcat : ∀ p ∈ usedSchema e h c.cols, p.2 ≠ .cat := by
    intro p hp hh
    rcases hfeat p hp with h | h | h <;> rw [hh] at h <;> cases h
  have hnot : ∀ al, (al = Alias.cat ∨ al = .ord) → e.targetType ≠ some al := by
    rintro al (rfl | rfl) hh <;> rw [hh] at htarget <;> simp at htarget
  obtain ⟨t, t1, t2, t3, -, -, -, -, t8⟩ := fits_predict horder hw hf hkey hns hplain
    (by rintro (hh | hh); exact absurd hh (hnot _ (Or.inl rfl)); exact absurd hh (hnot _ (Or.inr rfl)))
    (fun hh => absurd hh (hnot _ (Or.inr rfl)))
  obtain ⟨sc, a, g, h1, h2, h3, h4, h5, h6, -, -, -, h7, h8, h9, -⟩ := fits_graph horder hw hf
  rw [hdag] at h4
  simp only [Bool.false_eq_true, if_false] at h4
  obtain ⟨es, t', e1, e2, e3, e4, e5⟩ := fits_target_last horder hw hf (by rw [h6]; exact hkey)
  have hnc : NoClash (c.cols ++ [f.target]) f.graph.encs := by rw [h6]; exact hns.noClash _
  have htm' : t' ∈ f.graph.encs := by rw [e1]; simp
  have htt : t' = t := by
    have := fits_node_type horder hw hf hnc htm' e2
    rw [t1] at this
    exact (Option.some.inj this).symm
  rw [htt] at e1 e2 e3 e4 htm'
  clear htt t'
  have hal : t.alias = a := by rw [h1] at t3; exact Option.some.inj t3
  -- every variable has one column
  have hsingle : ∀ d ∈ f.graph.encs, d.cols = [d.idx] ∧ ∀ row out, d.Encodes row out → out[d.idx]? = row[d.idx]? := by
    intro d hd
    have hda : d.alias = .cont ∨ d.alias = .bin ∨ d.alias = .poiss := by
      rw [e1] at hd
      rcases List.mem_append.1 hd with hd | hd
      · have : ((c.cols ++ [f.target]).getD d.idx [], d.alias) ∈ usedSchema e h c.cols := by
          unfold usedSchema
          rw [← e5]
          exact List.mem_map.2 ⟨d, hd, rfl⟩
        exact hfeat _ this
      · rw [List.mem_singleton] at hd
        rw [hd, hal]
        rw [h1] at htarget
        rcases htarget with hh | hh | hh <;> cases hh
        · exact Or.inl rfl
        · exact Or.inr (Or.inl rfl)
        · exact Or.inr (Or.inr rfl)
    cases d with
    | cont i => exact ⟨rfl, fun _ _ h => h⟩
    | bin i => exact ⟨rfl, fun _ _ h => h⟩
    | poiss i => exact ⟨rfl, fun _ _ h => h⟩
    | cat i g cats => rcases hda with h | h | h <;> cases h
    | ord i cats counts => rcases hda with h | h | h <;> cases h
  have hd : f.graph.arch.d = c.cols.length + 1 := by
    have q1 := e4.cols.length_eq
    have q2 := e4.idx.length_eq
    rw [List.length_range] at q1 q2
    rw [← q1, ← q2, List.length_flatMap, List.length_map]
    have : ((es ++ [t]).map fun d => d.cols.length) = (es ++ [t]).map fun _ => 1 := by
      refine List.map_congr_left fun d hd => ?_
      rw [← e1] at hd
      rw [(hsingle d hd).1]; rfl
    rw [this]; simp
  obtain ⟨g0, x0, nm, F⟩ := fromPandas_facts horder h7 h8 (by intro l hl; cases hl; exact h9) h3
  have hncg : NoClash (c.cols ++ [f.target]) g0.encs := by rw [← F.encs, ← h4]; exact hnc
  have hname : ∀ k (hk : k < c.cols.length + 1), (c.cols ++ [f.target])[k]? = some (nm k) := by
    intro k hk
    obtain ⟨d, hd', hi⟩ := F.layout.var (u := k) (by change k < (c.cols ++ [f.target]).length; simp; omega)
    have hd'' : d ∈ f.graph.encs := by rw [h4, F.encs]; exact hd'
    obtain ⟨v, hv, hh⟩ := F.names d hd' 0 k (by rw [(hsingle d hd'').1, hi]; rfl)
    rw [hi] at hv
    rw [hh]
    exact hv
  have hnmt : nm c.cols.length = f.target := by
    have := hname c.cols.length (by omega)
    simpa using this.symm
  have hnmc : ∀ k < c.cols.length, c.cols[k]? = some (nm k) := by
    intro k hk
    have := hname k (by omega)
    rwa [List.getElem?_append_left hk] at this
  obtain ⟨p, s, -, -, -, hg0⟩ := fromNumpy_ok F.learned
  have hx0 : x0.wThreshold = some e.params.threshold ∧ x0.hidden = e.params.hidden := by
    rw [F.same]; exact ⟨rfl, rfl⟩
  set A := archOf x0 p.data.cols with hA
  have hfarch : f.graph.arch = A := by rw [h4, F.arch, hg0]; rfl
  have hfparams : f.graph.params = s.params := by rw [h4, F.params, hg0]; rfl
  have hlin' : A.hidden.headD 0 = 0 := by
    change (hiddenUnits x0.hidden).headD 0 = 0
    rw [hx0.2]; exact hlin
  have hAd : A.d = c.cols.length + 1 := by rw [← hfarch]; exact hd
  have hg0d : g0.arch.d = c.cols.length + 1 := by rw [← F.arch, ← h4]; exact hd
  -- the edges
  have hedges : f.graph.edges.Perm (g0.edges.map fun e => ⟨nm e.src, nm e.dst, e.weight, e.meanEffect, "learned"⟩) := by
    rw [h4]; exact F.edges hncg
  have hg0e : ∀ d : LEdge ℕ, d ∈ g0.edges → d.src < A.d ∧ d.dst < A.d ∧
      d.meanEffect = meanEffect A (A.net s.params) (p.data.rows.map realRow) d.src d.dst := by
    intro d hd'
    rw [hg0] at hd'
    unfold buildGraph at hd'
    simp only at hd'
    rw [cutEdges_nonpos (by rw [hx0.1]; intro t ht; cases ht; exact hthr)] at hd'
    obtain ⟨d', hd1, rfl⟩ := List.mem_map.1 hd'
    obtain ⟨q1, q2, -⟩ := mem_ofMatrix.1 hd1
    exact ⟨q1, q2, rfl⟩
  have hg0m : ∀ i j, i < A.d → j < A.d → adjacency A (A.net s.params) (p.data.rows.map realRow) i j ≠ 0 →
      ∃ d ∈ g0.edges, d.src = i ∧ d.dst = j := by
    intro i j hi hj hne
    rw [hg0]
    unfold buildGraph
    simp only
    rw [cutEdges_nonpos (by rw [hx0.1]; intro t ht; cases ht; exact hthr)]
    exact ⟨_, List.mem_map.2 ⟨⟨i, j, adjacency A (A.net s.params) (p.data.rows.map realRow) i j, "unknown"⟩, mem_ofMatrix.2 ⟨hi, hj, hne, rfl, rfl⟩, rfl⟩, rfl, rfl⟩
  have hinj : ∀ k l, k < c.cols.length + 1 → l < c.cols.length + 1 → nm k = nm l → k = l := by
    intro k l hk hl heq
    exact F.inj hncg k l (by rw [hg0d]; exact hk) (by rw [hg0d]; exact hl) heq
  -- coefficients
  have hcoef : ∀ k < c.cols.length, (coef f).getD k 0 = meanEffect A (A.net s.params) (p.data.rows.map realRow) k c.cols.length := by
    intro k hk
    have hal' := (edgesToNode_aligned f LEdge.meanEffect f.target (fits_pairs horder hw hf)).1
    rw [h5] at hal'
    obtain ⟨v, hv, hev⟩ := hal' k (nm k) (hnmc k hk)
    have hcv : (coef f).getD k 0 = v := by
      rw [List.getD_eq_getElem?_getD]
      unfold coef
      rw [hv]; rfl
    rw [hcv]
    rcases hev with ⟨d, hd', q1, q2, q3⟩ | ⟨hno, hv0⟩
    · rw [hedges.mem_iff] at hd'
      obtain ⟨d0, hd0, rfl⟩ := List.mem_map.1 hd'
      obtain ⟨r1, r2, r3⟩ := hg0e d0 hd0
      simp only at q1 q2 q3
      rw [hAd] at r1 r2
      have s1 := hinj _ _ r1 (by omega) q1
      have s2 := hinj _ _ r2 (by omega) (q2.trans hnmt.symm)
      rw [q3, r3, s1, s2]
    · rw [hv0]
      by_contra hne
      have hadj : adjacency A (A.net s.params) (p.data.rows.map realRow) k c.cols.length ≠ 0 := by
        intro h0
        have := meanEffect_le A (A.net s.params) (p.data.rows.map realRow) k c.cols.length
        rw [h0] at this
        exact hne (abs_nonpos_iff.1 this).symm
      obtain ⟨d0, hd0, r1, r2⟩ := hg0m k c.cols.length (by omega) (by omega) hadj
      refine hno ⟨nm d0.src, nm d0.dst, d0.weight, d0.meanEffect, "learned"⟩ ?_ ⟨by rw [← r1], by rw [← hnmt, ← r2]⟩
      rw [hedges.mem_iff]
      exact List.mem_map.2 ⟨d0, hd0, rfl⟩
  have hbias : (f.graph.bias f.target).getD 0 = biasAt (A.net s.params).bias c.cols.length := by
    rw [h4, ← hnmt, (F.attrs hncg c.cols.length (by rw [hg0d]; omega)).1, hg0]
    change (((A.net s.params).bias).map fun b => b.getD c.cols.length 0).getD 0 = _
    cases hb : (A.net s.params).bias <;> rfl
  have hnode : f.target ∈ f.graph.nodes :=
    (fits_nodes horder hw hf _).2 ⟨t, htm', f.target, 0, by rw [(hsingle t htm').1]; simp, by rw [e2]; simp, rfl⟩
  refine ⟨a, (f.graph.bias f.target).getD 0, h1, by unfold interceptOf; rw [if_pos hnode], ?_⟩
  intro isInt X hX hknown
  obtain ⟨ys, y1, y2⟩ := (t8 isInt X hX).1 hknown
  refine ⟨ys, y1, ?_⟩
  have hall : List.Forall₂ (fun r y => r ∈ X ∧ PredictionOf e f t isInt r y) X ys := by
    have : ∀ (X' : List (List ℚ)) (Y : List (List ℝ)), List.Forall₂ (PredictionOf e f t isInt) X' Y → (∀ r ∈ X', r ∈ X) →
        List.Forall₂ (fun r y => r ∈ X ∧ PredictionOf e f t isInt r y) X' Y := by
      intro X' Y hXY
      induction hXY with
      | nil => intro _; exact .nil
      | cons hr _ ih =>
        intro hmem
        exact .cons ⟨hmem _ List.mem_cons_self, hr⟩ (ih fun r hr => hmem r (List.mem_cons_of_mem _ hr))
    exact this X ys y2 fun _ h => h
  refine hall.imp ?_
  rintro r y ⟨hrX, z, hz1, hz2, rfl⟩
  have hir : (inputRow e f isInt r).length = c.cols.length + 1 := by
    unfold inputRow
    rw [List.length_append]
    split_ifs
    · rw [scaleRow_length, hX r hrX]; rfl
    · rw [scaleRow_length, hX r hrX]; rfl
    · rw [hX r hrX]; rfl
  have hz : ∀ k < c.cols.length + 1, z.getD k 0 = (inputRow e f isInt r).getD k 0 := by
    intro k hk
    have hmem : k ∈ (es ++ [t]).map Enc.idx := e4.idx.mem_iff.2 (List.mem_range.2 hk)
    obtain ⟨d, hd', hi⟩ := List.mem_map.1 hmem
    rw [← e1] at hd'
    have := (hsingle d hd').2 _ _ (hz2 d hd')
    rw [List.getD_eq_getElem?_getD, List.getD_eq_getElem?_getD, ← hi, this]
  have hlast : (inputRow e f isInt r).getD c.cols.length 0 = 0 := by
    unfold inputRow
    split_ifs
    · rw [List.getD_eq_getElem?_getD, List.getElem?_append_right (by rw [scaleRow_length, hX r hrX]), scaleRow_length, hX r hrX]; simp
    · rw [List.getD_eq_getElem?_getD, List.getElem?_append_right (by rw [scaleRow_length, hX r hrX]), scaleRow_length, hX r hrX]; simp
    · rw [List.getD_eq_getElem?_getD, List.getElem?_append_right (by rw [hX r hrX]), hX r hrX]; simp
  have hforward : forward f.graph.arch (f.graph.arch.net f.graph.params) (realRow z) c.cols.length =
      (∑ k ∈ Finset.range c.cols.length, (coef f).getD k 0 * (((inputRow e f isInt r).getD k 0 : ℚ) : ℝ)) + (f.graph.bias f.target).getD 0 := by
    rw [hfarch, hfparams, linear_forward hlin' s.params (p.data.rows.map realRow), hbias, hAd, Finset.sum_range_succ]
    congr 1
    have hlz : realRow z c.cols.length = 0 := by
      change ((z.getD c.cols.length 0 : ℚ) : ℝ) = 0
      rw [hz _ (by omega), hlast]; norm_num
    rw [hlz, mul_zero, add_zero]
    refine Finset.sum_congr rfl fun k hk => ?_
    rw [Finset.mem_range] at hk
    rw [hcoef k hk]
    congr 1
    change ((z.getD k 0 : ℚ) : ℝ) = _
    rw [hz k (by omega)]
  rw [(hsingle t htm').1, e2, List.map_cons, List.map_nil, hforward]
  cases t with
  | cont i => rw [← hal]; rfl
  | bin i => rw [← hal]; rfl
  | poiss i => rw [← hal]; rfl
  | cat i g cats => exact absurd t3.symm (hnot _ (Or.inl rfl))
  | ord i cats counts => exact absurd t3.symm (hnot _ (Or.inr rfl))

end

end Verif.Sklearn
