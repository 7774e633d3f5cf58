import Verif.Sklearn.PropsLinear

/-!
What holds for classifiers where C66 fails (a binary type kept from an earlier fit), and the rows of coefficients for features of any type.
-/

namespace Verif.Sklearn

open Verif.Str Verif.Pytorch

theorem mapM_mem {α β : Type} {F : α → Except Err β} {l : List α} {l' : List β} (h : l.mapM F = .ok l') {b : β} (hb : b ∈ l') :
    ∃ a ∈ l, F a = .ok b := by
  induction l generalizing l' with
  | nil => cases h; simp at hb
  | cons a l ih =>
    rw [List.mapM_cons] at h
    cases ha : F a with
    | error e => rw [ha] at h; cases h
    | ok v =>
      rw [ha] at h
      cases hl : l.mapM F with
      | error e => rw [hl] at h; cases h
      | ok vs =>
        rw [hl] at h
        cases h
        rcases List.mem_cons.1 hb with rfl | hb
        · exact ⟨a, List.mem_cons_self, ha⟩
        · obtain ⟨a', h1, h2⟩ := ih hl hb
          exact ⟨a', List.mem_cons_of_mem _ h1, h2⟩

/-- The type chosen at the first `fit` is kept: fitted first for two classes and then for three or more, the classifier reports two
probabilities per row, not one per class, and never predicts the third or a later class. -/
theorem clf_refit_binary {L : Type} [LinearOrder L] {ext : Ext} (horder : ∀ es, (ext.order es).Perm es) {k k' : Clf L} {h h' : Heap}
    {cols : List Str} {x : ℕ} {yname : Option Str} {y : List L} (hfit : clfFit ext k h cols x yname y = (h', k', none))
    (hw : WellFormed cols yname (h.tables.getD x []) (k.est.params.schema.map fun r => h.schemas.getD r []))
    (hkey : ∀ r, k.est.params.schema = some r → targetName yname ∉ (h.schemas.getD r []).map Prod.fst)
    (hns : NoSuffix (cols ++ [targetName yname])) (htype : k.est.targetType = some .bin) (h3 : 2 < k'.classes.length)
    (isInt : Bool) (X : List (List ℚ)) :
    (∀ ps, predictProba k' isInt X = .ok ps → ∀ p ∈ ps, p.length = 2) ∧
    (∀ ls, clfPredict k' isInt X = .ok ls → ∀ l ∈ ls, ∀ i, 2 ≤ i → k'.classes[i]? ≠ some l) := by
  obtain ⟨h2, hc, f, hf, hk⟩ := clfFit_ok hfit
  have hsorted : k'.classes.Pairwise (· < ·) := by rw [hc]; exact (labelClasses_spec y).1
  obtain ⟨sc, a, g, -, -, -, -, -, h6, -, -, -, h7, -⟩ := fits_graph horder (c := ⟨cols, x, h.series.length, yname⟩)
    (e := { k.est with targetType := some (clfType k.est.targetType (labelClasses y).length) })
    (h := { h with series := h.series ++ [y.map fun v => ((labelClasses y).idxOf v : ℚ)] }) hw hf
  obtain ⟨es, t, e1, e2, e3, -⟩ := fits_target_last horder (c := ⟨cols, x, h.series.length, yname⟩)
    (e := { k.est with targetType := some (clfType k.est.targetType (labelClasses y).length) })
    (h := { h with series := h.series ++ [y.map fun v => ((labelClasses y).idxOf v : ℚ)] }) hw hf (by rw [h6]; exact hkey)
  have hnt := fits_node_type horder (c := ⟨cols, x, h.series.length, yname⟩)
    (e := { k.est with targetType := some (clfType k.est.targetType (labelClasses y).length) })
    (h := { h with series := h.series ++ [y.map fun v => ((labelClasses y).idxOf v : ℚ)] }) hw hf (by rw [h6]; exact hns.noClash _)
    (t := t) (by rw [e1]; simp) e2
  have hbin : t.alias = .bin := by
    have : some t.alias = some (clfType k.est.targetType (labelClasses y).length) := e3
    rw [htype] at this
    exact Option.some.inj this
  have hone : oneDim (k'.est.fitted.bind fun f => f.graph.distType f.target) = true := by
    rw [hk]
    change oneDim (f.graph.distType f.target) = true
    rw [hnt]
    cases t with
    | bin i => rfl
    | cont i => cases hbin
    | poiss i => cases hbin
    | cat i g cats => cases hbin
    | ord i cats counts => cases hbin
  have hA : ∀ ps, predictProba k' isInt X = .ok ps → ∀ p ∈ ps, p.length = 2 := by
    intro ps hps p hp
    unfold predictProba at hps
    rw [hone] at hps
    cases hb : basePredict k'.est isInt X with
    | error err => rw [hb] at hps; cases hps
    | ok ys =>
      rw [hb] at hps
      cases hps
      obtain ⟨v, -, rfl⟩ := List.mem_map.1 hp
      rfl
  refine ⟨hA, fun ls hls l hl i hi => ?_⟩
  unfold clfPredict at hls
  cases hps : predictProba k' isInt X with
  | error err => rw [hps] at hls; cases hls
  | ok ps =>
    rw [hps] at hls
    obtain ⟨p, hp, hpl⟩ := mapM_mem hls hl
    have hpl2 := hA ps hps p hp
    unfold classOf at hpl
    have hci : classIndex k'.classes.length p < 2 := by
      unfold classIndex
      rw [if_neg (by omega), ← hpl2]
      exact (argmax_spec p (by intro h0; rw [h0] at hpl2; simp at hpl2)).1
    cases hh : k'.classes[classIndex k'.classes.length p]? with
    | none => rw [hh] at hpl; cases hpl
    | some c =>
      rw [hh] at hpl
      cases hpl
      intro hcon
      have hnd : k'.classes.Nodup := hsorted.imp fun h => ne_of_lt h
      obtain ⟨q1, q2⟩ := List.getElem?_eq_some_iff.1 hh
      obtain ⟨q3, q4⟩ := List.getElem?_eq_some_iff.1 hcon
      have := (List.Nodup.getElem_inj_iff hnd).1 (q2.trans q4.symm)
      omega

/-- For features of any type: if the rows of a classifier can be read, there is one for two classes and otherwise one for each class, and
each has the values of the edges at the positions of their features (further entries, for the further columns of categorical features,
can follow). Otherwise reading them raises a `ValueError`, never for two classes. -/
theorem class_rows_aligned {ext : Ext} {e : Est} {h : Heap} {c : Call} {f : Fit} (horder : ∀ es, (ext.order es).Perm es) (hw : c.WF e h)
    (hf : Fits ext e h c f) (n : ℕ) (value : LEdge Str → ℝ) :
    (∀ rows, clfRows f n value = .ok rows → rows.length = (if n = 2 then 1 else n) ∧
      ∀ (m : ℕ) (r : List ℝ), rows[m]? = some r → c.cols.length ≤ r.length ∧
        Aligned c.cols f.graph.edges value (columnName f.target m) r) ∧
    (∀ err, clfRows f n value = .error err → err = .valueError ∧ n ≠ 2) := by
  obtain ⟨sc, a, g, h1, h2, h3, h4, h5, h6, -⟩ := fits_graph horder hw hf
  have hp := fits_pairs horder hw hf
  have hrow : ∀ m, c.cols.length ≤ ((edgesToNode f value (columnName f.target m)).map Prod.snd).length ∧
      Aligned c.cols f.graph.edges value (columnName f.target m) ((edgesToNode f value (columnName f.target m)).map Prod.snd) := by
    intro m
    have A := edgesToNode_aligned f value (columnName f.target m) hp
    rw [h5] at A
    rw [List.length_map]
    exact ⟨A.2.1, A.1⟩
  unfold clfRows
  by_cases hn : n = 2
  · rw [if_pos hn]
    refine ⟨fun rows hr => ?_, fun err he => (by cases he)⟩
    cases hr
    rw [if_pos hn]
    refine ⟨rfl, fun m r hm => ?_⟩
    have hm0 : m = 0 := by
      have := (List.getElem?_eq_some_iff.1 hm).1
      simp at this
      exact this
    subst hm0
    cases hm
    exact hrow 0
  · rw [if_neg hn]
    simp only
    split_ifs with hall
    · refine ⟨fun rows hr => ?_, fun err he => (by cases he)⟩
      cases hr
      refine ⟨by simp, fun m r hm => ?_⟩
      rw [List.getElem?_map] at hm
      cases hr : (List.range n)[m]? with
      | none => rw [hr] at hm; cases hm
      | some m' =>
        rw [hr] at hm
        have : m' = m := by
          obtain ⟨q1, q2⟩ := List.getElem?_eq_some_iff.1 hr
          simpa using q2.symm
        subst this
        cases hm
        exact hrow m'
    · refine ⟨fun rows hr => (by cases hr), fun err he => ?_⟩
      cases he
      exact ⟨rfl, hn⟩

end Verif.Sklearn
