import Verif.Sklearn.PropsFit

/-!
# Predictions (C66)
-/

namespace Verif.Sklearn

open Verif.Str Verif.Pytorch
open Verif.Notears (Tabu Minimizer RespectsBounds Permitted)

/-! ### Specification -/

/-- The row given to the network: the features, standardised if asked for, and the place of the target. -/
def inputRow (e : Est) (f : Fit) (isInt : Bool) (r : List ℚ) : List ℚ :=
  (if e.params.standardize then scaleRow (if isInt then truncate else id) f.contIdx f.ssX r else r) ++ [0]

/-- A standardised value that is written to an array of integers loses its fraction: it becomes the integer next to it in the direction of 0. -/
theorem truncate_spec (q : ℚ) : ∃ z : ℤ, truncate q = z ∧ |(z : ℚ)| ≤ |q| ∧ |q| < |(z : ℚ)| + 1 ∧ 0 ≤ z * q := by
  unfold truncate
  by_cases h : q < 0
  · rw [if_pos h]
    have h1 : ((⌈q⌉ : ℤ) : ℚ) ≤ 0 := by exact_mod_cast Int.ceil_le.2 (by simpa using h.le)
    have h2 := Int.le_ceil q
    have h3 := Int.ceil_lt_add_one q
    refine ⟨⌈q⌉, rfl, ?_, ?_, mul_nonneg_of_nonpos_of_nonpos h1 h.le⟩
    · rw [abs_of_nonpos h1, abs_of_neg h]; linarith
    · rw [abs_of_nonpos h1, abs_of_neg h]; linarith
  · rw [if_neg h]
    push Not at h
    have h1 : (0 : ℚ) ≤ (⌊q⌋ : ℤ) := by exact_mod_cast Int.le_floor.2 (by simpa using h)
    have h2 := Int.floor_le q
    have h3 := Int.lt_floor_add_one q
    refine ⟨⌊q⌋, rfl, ?_, ?_, mul_nonneg h1 h⟩
    · rw [abs_of_nonneg h1, abs_of_nonneg h]; linarith
    · rw [abs_of_nonneg h1, abs_of_nonneg h]; linarith

/-- Undoing the standardisation of the target. -/
noncomputable def unscale (e : Est) (f : Fit) (a : ℝ) : ℝ :=
  match e.params.standardize, f.ssY with
  | true, some s => a * (s.2 : ℝ) + (s.1 : ℝ)
  | _, _ => a

/-- No variable before the target is ordinal. -/
def PlainFeatures (es : List Enc) : Prop := ∀ e ∈ es, e.alias ≠ .ord

/-! ### Reconstruction of the target -/

theorem encFitted_cols (e : Enc) : (encFitted e).cols = e.cols := by cases e <;> rfl

theorem encFitted_plain {e : Enc} (h : e.alias ≠ .ord) : (encFitted e).Plain := by
  cases e with
  | ord i c k => exact absurd rfl h
  | _ => trivial

theorem reconstruct_target {es : List Enc} {t : Enc} {n : ℕ} {lat : List ℝ} (hl : Layout (es ++ [t]) n lat.length) (hp : PlainFeatures es)
    (hord : ∀ i cats counts, t = .ord i cats counts → logCumOdds counts ≠ []) :
    ∃ out, inverseLinks ((es ++ [t]).map encFitted) lat = some out ∧
      getColumns (encFitted t) out = some ((encFitted t).response (t.cols.map fun k => lat.getD k 0)) := by
  have hvalid : ∀ e ∈ es ++ [t], (encFitted e).Valid lat.length := by
    intro e he
    unfold Fitted.Valid
    rw [encFitted_cols]
    exact ⟨List.nodup_flatMap.1 hl.nodup |>.1 e he, fun i hi => hl.col_lt he hi⟩
  have hdisj : ((es ++ [t]).map encFitted).Pairwise (fun s t => ∀ i ∈ s.cols, i ∉ t.cols) := by
    rw [List.pairwise_map]
    refine (List.nodup_flatMap.1 hl.nodup).2.imp ?_
    intro a b hab i hi
    rw [encFitted_cols] at hi ⊢
    exact fun hi' => hab hi hi'
  by_cases ht : t.alias = .ord
  · cases t with
    | ord i cats counts =>
      rw [List.map_append, List.map_cons, List.map_nil]
      change ∃ out, inverseLinks (es.map encFitted ++ [.ord i (logCumOdds counts)]) lat = some out ∧ _
      rw [List.map_append, List.map_cons, List.map_nil, List.pairwise_append] at hdisj
      have hi : i < lat.length := hl.col_lt (List.mem_append_right _ List.mem_cons_self) (show i ∈ (Enc.ord i cats counts).cols from List.mem_cons_self)
      rw [reconstruct_ordinal_last (es.map encFitted) i (logCumOdds counts) lat]
      · rw [ordProbs_eq _ _ (hord i cats counts rfl)]
        refine ⟨_, rfl, ?_⟩
        change some _ = some ((ordProbs (logCumOdds counts) _).getD [])
        rw [ordProbs_eq _ _ (hord i cats counts rfl)]
        rfl
      · intro s hs
        obtain ⟨e, he, rfl⟩ := List.mem_map.1 hs
        exact encFitted_plain (hp e he)
      · intro s hs
        obtain ⟨e, he, rfl⟩ := List.mem_map.1 hs
        exact hvalid e (List.mem_append_left _ he)
      · exact hdisj.1
      · exact hi
      · intro s hs his
        exact hdisj.2.2 s hs _ List.mem_cons_self i his List.mem_cons_self
    | _ => cases ht
  · obtain ⟨out, h1, -, h3, -⟩ := reconstruct_columns ((es ++ [t]).map encFitted) lat
      (by
        intro s hs
        obtain ⟨e, he, rfl⟩ := List.mem_map.1 hs
        rcases List.mem_append.1 he with he | he
        · exact encFitted_plain (hp e he)
        · rw [List.mem_singleton] at he; rw [he]; exact encFitted_plain ht)
      (by
        intro s hs
        obtain ⟨e, he, rfl⟩ := List.mem_map.1 hs
        exact hvalid e he) hdisj
    refine ⟨out, h1, ?_⟩
    obtain ⟨v, hv, hv'⟩ := h3 (encFitted t) (List.mem_map_of_mem (by simp))
    rw [hv']
    rw [encFitted_cols] at hv
    obtain ⟨v', hv1, -, hv2⟩ := gather_some t.cols lat fun i hi => hl.col_lt (by simp) hi
    rw [hv] at hv1
    cases hv1
    rw [hv2]

/-! ### All rows -/

theorem mapM_forall₂ {α β : Type} {F : α → Except Err β} {R : α → β → Prop} {l : List α} (h : ∀ a ∈ l, ∃ b, F a = .ok b ∧ R a b) :
    ∃ l', l.mapM F = .ok l' ∧ List.Forall₂ R l l' := by
  induction l with
  | nil => exact ⟨[], rfl, .nil⟩
  | cons a l ih =>
    obtain ⟨b, hb, hr⟩ := h a List.mem_cons_self
    obtain ⟨l', h1, h2⟩ := ih fun a ha => h a (List.mem_cons_of_mem _ ha)
    refine ⟨b :: l', ?_, .cons hr h2⟩
    rw [List.mapM_cons, hb, h1]; rfl

theorem forall₂_comp {α β γ : Type} {R : α → β → Prop} {S : β → γ → Prop} {l : List α} {m : List β} {k : List γ}
    (h : List.Forall₂ R l m) (h' : List.Forall₂ S m k) : List.Forall₂ (fun a c => ∃ b, R a b ∧ S b c) l k := by
  induction h generalizing k with
  | nil => cases h'; exact .nil
  | cons hr _ ih => cases h' with
    | cons hs ht => exact .cons ⟨_, hr, hs⟩ (ih ht)

section
variable {ext : Ext} {e : Est} {h : Heap} {c : Call} {f : Fit}

/-- The target is the last variable. -/
theorem fits_target_last (horder : ∀ es, (ext.order es).Perm es) (hw : c.WF e h) (hf : Fits ext e h c f)
    (hkey : ∀ r, e.params.schema = some r → f.target ∉ (h.schemas.getD r []).map Prod.fst) :
    ∃ es t, f.graph.encs = es ++ [t] ∧ t.idx = c.cols.length ∧ some t.alias = e.targetType ∧
      Layout (es ++ [t]) (c.cols.length + 1) f.graph.arch.d ∧
      es.map (fun d => ((c.cols ++ [f.target]).getD d.idx [], d.alias)) =
        schemaValue (e.params.schema.map fun r => h.schemas.getD r []) c.cols := by
  obtain ⟨sc, a, g, h1, h2, h3, h4, -, h6, -, -, -, h7, h8, h9, -⟩ := fits_graph horder hw hf
  have henc : f.graph.encs = g.encs := by rw [h4]; split_ifs <;> rfl
  have harch : f.graph.arch = g.arch := by rw [h4]; split_ifs <;> rfl
  obtain ⟨g0, x0, nm, F⟩ := fromPandas_facts horder h7 h8 (by intro l hl; cases hl; exact h9) h3
  have hfresh : f.target ∉ (schemaValue (e.params.schema.map fun r => h.schemas.getD r []) c.cols).map Prod.fst := by
    have hdef : f.target ∉ (c.cols.map fun d => (d, Alias.cont)).map Prod.fst := by
      rw [List.map_map]
      change f.target ∉ c.cols.map id
      rw [List.map_id, h6]; exact hw.fresh
    cases hr : e.params.schema with
    | none => exact hdef
    | some r =>
      have := hkey r hr
      rw [Option.map_some]
      unfold schemaValue
      cases hl : h.schemas.getD r [] with
      | nil => exact hdef
      | cons p l => rw [hl] at this; exact this
  have htypes := F.types _ rfl
  unfold dictSet at htypes
  rw [if_neg hfresh] at htypes
  obtain ⟨es, ts, e1, e2, e3⟩ := List.map_eq_append_iff.1 htypes
  obtain ⟨t, ts', e4, e5, e6⟩ := List.map_eq_cons_iff.1 e3
  rw [List.map_eq_nil_iff] at e6
  rw [e6] at e4
  rw [e4] at e1
  have ht : t ∈ g0.encs := by rw [e1]; simp
  simp only [Prod.mk.injEq] at e5
  have hidx : t.idx = c.cols.length := by
    have hlt := F.layout.idx_lt ht
    have hget : (joined c.cols f.target sc.X sc.y).cols[t.idx]? = some f.target := by
      have h51 := e5.1
      rw [List.getD_eq_getElem?_getD, List.getElem?_eq_getElem hlt] at h51
      rw [List.getElem?_eq_getElem hlt]
      exact congrArg some h51
    have hlast : (joined c.cols f.target sc.X sc.y).cols[c.cols.length]? = some f.target := by
      change (c.cols ++ [f.target])[c.cols.length]? = _
      simp
    obtain ⟨q1, q2⟩ := List.getElem?_eq_some_iff.1 hget
    obtain ⟨r1, r2⟩ := List.getElem?_eq_some_iff.1 hlast
    exact (List.Nodup.getElem_inj_iff h7).1 (q2.trans r2.symm)
  refine ⟨es, t, by rw [henc, F.encs, e1], hidx, by rw [e5.2, h1], ?_, e2⟩
  rw [← e1, harch, F.arch]
  have := F.layout
  rwa [show (joined c.cols f.target sc.X sc.y).cols.length = c.cols.length + 1 by
    change (c.cols ++ [f.target]).length = _; simp] at this

/-- What the types of a fit have learned, and how they treat new data. -/
theorem fits_transform (horder : ∀ es, (ext.order es).Perm es) (hw : c.WF e h) (hf : Fits ext e h c f) :
    ∃ sc : ScaledValues, scaleValues ext.std e.params.standardize e.targetType
        (schemaValue (e.params.schema.map fun r => h.schemas.getD r []) c.cols) c.cols (h.tables.getD c.x []) (h.series.getD c.y []) = .ok sc ∧
      (∀ d ∈ f.graph.encs, d.Learned (joined c.cols f.target sc.X sc.y).values) ∧
      ∀ Y : Frame, Y.WF → Y.cols = c.cols.length + 1 →
        ((∀ r ∈ Y.rows, ∀ d ∈ f.graph.encs, d.Accepts r) → ∃ Z, transformAll f.graph.encs Y = .ok Z ∧
          List.Forall₂ (fun r out => out.length = f.graph.arch.d ∧ ∀ d ∈ f.graph.encs, d.Encodes r out) Y.rows Z.rows) ∧
        (¬ (∀ r ∈ Y.rows, ∀ d ∈ f.graph.encs, d.Accepts r) → transformAll f.graph.encs Y = .error .valueError) := by
  obtain ⟨sc, a, g, h1, h2, h3, h4, -, h6, -, -, -, h7, h8, h9, -⟩ := fits_graph horder hw hf
  have henc : f.graph.encs = g.encs := by rw [h4]; split_ifs <;> rfl
  have harch : f.graph.arch = g.arch := by rw [h4]; split_ifs <;> rfl
  obtain ⟨g0, x0, nm, F⟩ := fromPandas_facts horder h7 h8 (by intro l hl; cases hl; exact h9) h3
  rw [henc, harch, F.encs, F.arch]
  obtain ⟨p, s, hp, -, -, rfl⟩ := fromNumpy_ok F.learned
  obtain ⟨-, -, -, hlearn, -⟩ := prepare_layout _ _ _ _ h8 F.dict hp
  refine ⟨sc, h2, hlearn, ?_⟩
  intro Y hY hc
  have hc' : Y.cols = (joined c.cols f.target sc.X sc.y).values.cols := by
    rw [hc]; change _ = (c.cols ++ [f.target]).length; simp
  obtain ⟨t1, t2, -⟩ := transform_layout _ Y _ _ _ h8 F.dict hp hY hc'
  refine ⟨fun hacc => ?_, t2⟩
  obtain ⟨Z, z1, z2, z3⟩ := t1 hacc
  refine ⟨Z, z1, ?_⟩
  rw [z2] at z3
  exact z3

theorem fits_node_type (horder : ∀ es, (ext.order es).Perm es) (hw : c.WF e h) (hf : Fits ext e h c f)
    (hnc : NoClash (c.cols ++ [f.target]) f.graph.encs) {t : Enc} (ht : t ∈ f.graph.encs) (hi : t.idx = c.cols.length) :
    f.graph.distType f.target = some t := by
  obtain ⟨sc, a, g, h1, h2, h3, h4, -, h6, -, -, -, h7, h8, h9, -⟩ := fits_graph horder hw hf
  have henc : f.graph.encs = g.encs := by rw [h4]; split_ifs <;> rfl
  have hdist : f.graph.distType = g.distType := by rw [h4]; split_ifs <;> rfl
  obtain ⟨g0, x0, nm, F⟩ := fromPandas_facts horder h7 h8 (by intro l hl; cases hl; exact h9) h3
  rw [henc, F.encs] at hnc ht
  rw [hdist]
  refine F.node_type hnc ht ?_
  rw [hi]
  change (c.cols ++ [f.target])[c.cols.length]? = _
  simp

/-- The prediction for one row of data, from the network: encode the row, reconstruct the columns of the target, apply the link of the
target, undo the standardisation. -/
def PredictionOf (e : Est) (f : Fit) (t : Enc) (isInt : Bool) (r : List ℚ) (v : List ℝ) : Prop :=
  ∃ z : List ℚ, z.length = f.graph.arch.d ∧ (∀ d ∈ f.graph.encs, d.Encodes (inputRow e f isInt r) z) ∧
    v = ((encFitted t).response (t.cols.map (forward f.graph.arch (f.graph.arch.net f.graph.params) (realRow z)))).map (unscale e f)

/-- Predictions of a fitted estimator without ordinal features: a `ValueError` exactly for rows with an unknown category or a negative
count; otherwise one prediction for each row. -/
theorem basePredict_rows (horder : ∀ es, (ext.order es).Perm es) (hw : c.WF e h) (hf : Fits ext e h c f)
    (hnc : NoClash (c.cols ++ [f.target]) f.graph.encs) {es : List Enc} {t : Enc} (hes : f.graph.encs = es ++ [t])
    (hl : Layout (es ++ [t]) (c.cols.length + 1) f.graph.arch.d) (hti : t.idx = c.cols.length) (hp : PlainFeatures es)
    (hord : ∀ i cats counts, t = .ord i cats counts → logCumOdds counts ≠ []) (isInt : Bool) (X : List (List ℚ))
    (hX : ∀ r ∈ X, r.length = c.cols.length) :
    ((∀ r ∈ X, ∀ d ∈ f.graph.encs, d.Accepts (inputRow e f isInt r)) →
      ∃ ys, basePredict { e with fitted := some f } isInt X = .ok ys ∧ List.Forall₂ (PredictionOf e f t isInt) X ys) ∧
    (¬ (∀ r ∈ X, ∀ d ∈ f.graph.encs, d.Accepts (inputRow e f isInt r)) →
      basePredict { e with fitted := some f } isInt X = .error .valueError) := by
  obtain ⟨sc, -, -, htr⟩ := fits_transform horder hw hf
  have htt := fits_node_type horder hw hf hnc (t := t) (by rw [hes]; simp) hti
  have hready := fits_ready hw hf
  have hfeat : f.features = c.cols := by
    obtain ⟨_, _, _, _, _, _, _, h5, _⟩ := fits_graph horder hw hf
    exact h5
  have hrows : (if e.params.standardize = true then X.map (scaleRow (if isInt = true then truncate else id) f.contIdx f.ssX) else X).map
      (fun r => r ++ [0]) = X.map (inputRow e f isInt) := by
    unfold inputRow
    split_ifs <;> simp [List.map_map, Function.comp]
  have hY : Frame.WF ⟨c.cols.length + 1, X.map (inputRow e f isInt)⟩ := by
    intro r hr
    obtain ⟨r', hr', rfl⟩ := List.mem_map.1 hr
    unfold inputRow
    rw [List.length_append]
    split_ifs
    · rw [scaleRow_length, hX r' hr']; rfl
    · rw [scaleRow_length, hX r' hr']; rfl
    · rw [hX r' hr']; rfl
  obtain ⟨t1, t2⟩ := htr _ hY rfl
  simp only [List.mem_map, forall_exists_index, and_imp, forall_apply_eq_imp_iff₂] at t1 t2
  refine ⟨fun hacc => ?_, fun hacc => ?_⟩
  · obtain ⟨Z, z1, z2⟩ := t1 hacc
    rw [List.forall₂_map_left_iff] at z2
    have hrec : ∃ outs, Z.rows.mapM (reconstructRow f.graph.arch f.graph.encs f.graph.params) = .ok outs ∧
        List.Forall₂ (fun z out => z ∈ Z.rows → getColumns (encFitted t) out =
          some ((encFitted t).response (t.cols.map (forward f.graph.arch (f.graph.arch.net f.graph.params) (realRow z))))) Z.rows outs := by
      refine mapM_forall₂ fun z hz => ?_
      set lat := (List.range f.graph.arch.d).map (forward f.graph.arch (f.graph.arch.net f.graph.params) (realRow z)) with hlat
      have hll : lat.length = f.graph.arch.d := by rw [hlat]; simp
      obtain ⟨out, o1, o2⟩ := reconstruct_target (lat := lat) (by rw [hll]; exact hl) hp hord
      refine ⟨out, ?_, fun _ => ?_⟩
      · unfold reconstructRow
        rw [hes, ← hlat, o1]
      · rw [o2]
        congr 2
        refine List.map_congr_left fun k hk => ?_
        have hk' : k < f.graph.arch.d := hl.col_lt (by simp) hk
        rw [hlat, List.getD_eq_getElem?_getD, List.getElem?_map, List.getElem?_range hk']
        rfl
    obtain ⟨outs, o1, o2⟩ := hrec
    have hcols : ∃ ys, outs.mapM (readColumns (encFitted t)) = .ok ys ∧
        List.Forall₂ (fun out y => getColumns (encFitted t) out = some y) outs ys := by
      refine mapM_forall₂ fun out hout => ?_
      obtain ⟨z, hz, hzo⟩ := forall₂_right o2 hout
      refine ⟨_, ?_, hzo hz⟩
      unfold readColumns
      rw [hzo hz]
    obtain ⟨ys, y1, y2⟩ := hcols
    have hfin := forall₂_comp z2 (forall₂_comp o2 y2)
    have hmem : List.Forall₂ (fun r y => ∃ z : List ℚ, z.length = f.graph.arch.d ∧ (∀ d ∈ f.graph.encs, d.Encodes (inputRow e f isInt r) z) ∧
        y = (encFitted t).response (t.cols.map (forward f.graph.arch (f.graph.arch.net f.graph.params) (realRow z)))) X ys := by
      have hz' : ∀ (A : List (List ℚ)) (B : List (List ℝ)), List.Forall₂ (fun z out => z ∈ Z.rows → getColumns (encFitted t) out =
          some ((encFitted t).response (t.cols.map (forward f.graph.arch (f.graph.arch.net f.graph.params) (realRow z))))) A B →
          (∀ a ∈ A, a ∈ Z.rows) → List.Forall₂ (fun z out => getColumns (encFitted t) out =
          some ((encFitted t).response (t.cols.map (forward f.graph.arch (f.graph.arch.net f.graph.params) (realRow z))))) A B := by
        intro A B hAB hA
        induction hAB with
        | nil => exact .nil
        | cons hr _ ih => exact .cons (hr (hA _ List.mem_cons_self)) (ih fun a ha => hA a (List.mem_cons_of_mem _ ha))
      have := forall₂_comp z2 (forall₂_comp (hz' _ _ o2 fun _ h => h) y2)
      refine this.imp ?_
      rintro r y ⟨z, ⟨q1, q2⟩, out, q3, q4⟩
      rw [q3] at q4
      cases q4
      exact ⟨z, q1, q2, rfl⟩
    have hbase : ∀ F : List ℝ → List ℝ, (∀ v, F v = v.map (unscale e f)) → List.Forall₂ (PredictionOf e f t isInt) X (ys.map F) := by
      intro F hF
      rw [List.forall₂_map_right_iff]
      refine hmem.imp ?_
      rintro r y ⟨z, q1, q2, rfl⟩
      exact ⟨z, q1, q2, hF _⟩
    unfold basePredict
    simp only [hready, Bool.not_true, Bool.and_false, Bool.false_eq_true, if_false, hrows, hfeat, reconstructData, z1, o1, htt, y1]
    cases hst : e.params.standardize with
    | false =>
      refine ⟨ys, rfl, ?_⟩
      have := hbase id (fun v => by
        have : unscale e f = id := by funext a; unfold unscale; rw [hst]; rfl
        rw [this, List.map_id]; rfl)
      rwa [List.map_id] at this
    | true =>
      cases hss : f.ssY with
      | none =>
        refine ⟨ys, rfl, ?_⟩
        have := hbase id (fun v => by
          have : unscale e f = id := by funext a; unfold unscale; rw [hst, hss]; rfl
          rw [this, List.map_id]; rfl)
        rwa [List.map_id] at this
      | some s =>
        refine ⟨_, rfl, hbase _ fun v => ?_⟩
        refine List.map_congr_left fun a _ => ?_
        unfold unscale
        rw [hst, hss]
  · unfold basePredict
    simp only [hready, Bool.not_true, Bool.and_false, Bool.false_eq_true, if_false, hrows, hfeat, reconstructData, t2 hacc]

end

end Verif.Sklearn
