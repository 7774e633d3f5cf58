import Verif.Sklearn.PropsPredict

/-!
# Classifiers (C66)
-/

namespace Verif.Sklearn

open Verif.Str Verif.Pytorch
open Verif.Notears (Tabu Minimizer RespectsBounds Permitted)

/-! ### Specification -/

/-- No name is another name followed by a number. -/
def NoSuffix (names : List Str) : Prop := ∀ v ∈ names, ∀ m, 0 < m → columnName v m ∉ names

/-- A row of features fits the training data `X`: counts are not negative, categories are known. -/
def KnownRow (cols : List Str) (schema : List (Str × Alias)) (X : List (List ℚ)) (r : List ℚ) : Prop :=
  ∀ (i : ℕ) (c : Str), cols[i]? = some c →
    ((c, Alias.poiss) ∈ schema → 0 ≤ r.getD i 0) ∧ ((c, Alias.cat) ∈ schema → ∃ r' ∈ X, r'.getD i 0 = r.getD i 0)

/-- The type of a target of a classifier fits the number of classes. -/
def TypeFits (t : Option Alias) (n : ℕ) : Prop := t = none ∨ (t = some .bin ∧ n = 2) ∨ t = some .cat ∨ t = some .ord

/-- A label with the highest probability. -/
def MostLikely {L : Type} (classes : List L) (p : List ℝ) (c : L) : Prop :=
  ∃ i, classes[i]? = some c ∧ ∀ k < classes.length, p.getD k 0 ≤ p.getD i 0

/-! ### Lemmas on choices -/

theorem NoSuffix.noClash {names : List Str} (h : NoSuffix names) (es : List Enc) : NoClash names es := by
  intro e _ m hm _ v hv
  exact h v (List.mem_of_getElem? hv) m hm

theorem argmax_spec : ∀ l : List ℝ, l ≠ [] → argmax l < l.length ∧ ∀ b ∈ l, b ≤ l.getD (argmax l) 0 := by
  intro l
  induction l with
  | nil => intro h; exact absurd rfl h
  | cons a l ih =>
    intro _
    unfold argmax
    by_cases h : ∀ b ∈ l, b ≤ a
    · rw [if_pos h]
      refine ⟨by simp, ?_⟩
      intro b hb
      rcases List.mem_cons.1 hb with rfl | hb
      · simp
      · simpa using h b hb
    · rw [if_neg h]
      have hne : l ≠ [] := by rintro rfl; exact h (by simp)
      obtain ⟨h1, h2⟩ := ih hne
      refine ⟨by simp; omega, ?_⟩
      intro b hb
      rw [List.getD_cons_succ]
      rcases List.mem_cons.1 hb with rfl | hb
      · push Not at h
        obtain ⟨d, hd, hlt⟩ := h
        exact le_trans hlt.le (h2 d hd)
      · exact h2 b hb

theorem roundEven_spec {p : ℝ} (h0 : 0 < p) (h1 : p < 1) :
    (p ≤ 1 / 2 → roundEven p = 0) ∧ (1 / 2 < p → roundEven p = 1) := by
  have hfl : ⌊p⌋ = 0 := by rw [Int.floor_eq_iff]; constructor <;> norm_num <;> linarith
  have hfr : Int.fract p = p := by rw [Int.fract, hfl]; simp
  unfold roundEven
  rw [hfl, hfr]
  constructor
  · intro h
    rcases lt_or_eq_of_le h with h | h
    · rw [if_pos h]
    · rw [if_neg (by linarith), if_neg (by linarith), if_pos (by decide)]
  · intro h
    rw [if_neg (by linarith), if_pos h]; rfl

/-- The class chosen for a row of probabilities has the highest one. -/
theorem classOf_spec {L : Type} (classes : List L) (h2 : 2 ≤ classes.length) {p : List ℝ} (hp : IsDistribution classes.length p) :
    ∃ c, classOf classes p = .ok c ∧ MostLikely classes p c := by
  obtain ⟨hl, hpos, hsum⟩ := hp
  have key : ∀ i, i < classes.length → classIndex classes.length p = i → (∀ k < classes.length, p.getD k 0 ≤ p.getD i 0) →
      ∃ c, classOf classes p = .ok c ∧ MostLikely classes p c := by
    intro i hi he hk
    refine ⟨classes[i], ?_, i, List.getElem?_eq_getElem hi, hk⟩
    unfold classOf
    rw [he, List.getElem?_eq_getElem hi]
  by_cases h : classes.length = 2
  · rw [h] at hl
    obtain ⟨a, b, rfl⟩ := List.length_eq_two.1 hl
    have ha := hpos a (by simp)
    have hb := hpos b (by simp)
    have hab : a + b = 1 := by simpa using hsum
    obtain ⟨r1, r2⟩ := roundEven_spec hb (by linarith)
    have hci : classIndex classes.length [a, b] = (roundEven b).toNat := by unfold classIndex; rw [if_pos h]; rfl
    by_cases hbh : b ≤ 1 / 2
    · refine key 0 (by omega) (by rw [hci, r1 hbh]; rfl) ?_
      intro k hk
      rw [h] at hk
      have : k = 0 ∨ k = 1 := by omega
      rcases this with rfl | rfl
      · exact le_rfl
      · change b ≤ a; linarith
    · push Not at hbh
      refine key 1 (by omega) (by rw [hci, r2 hbh]; rfl) ?_
      intro k hk
      rw [h] at hk
      have : k = 0 ∨ k = 1 := by omega
      rcases this with rfl | rfl
      · change a ≤ b; linarith
      · exact le_rfl
  · have hne : p ≠ [] := by rintro rfl; simp at hl; omega
    obtain ⟨h1, h3⟩ := argmax_spec p hne
    refine key (argmax p) (by omega) (by unfold classIndex; rw [if_neg h]) ?_
    intro k hk
    refine h3 _ ?_
    rw [List.getD_eq_getElem?_getD, List.getElem?_eq_getElem (by omega)]
    exact List.getElem_mem _

/-! ### Classes -/

theorem labelClasses_spec {L : Type} [LinearOrder L] (y : List L) :
    (labelClasses y).Pairwise (· < ·) ∧ ∀ c, c ∈ labelClasses y ↔ c ∈ y := by
  constructor
  · have h1 : (labelClasses y).Pairwise (· ≤ ·) := (List.pairwise_insertionSort (· ≤ ·) y).sublist (List.dedup_sublist _)
    have h2 : (labelClasses y).Nodup := List.nodup_dedup _
    exact (h1.and h2).imp fun h => lt_of_le_of_ne h.1 h.2
  · intro c
    unfold labelClasses
    rw [List.mem_dedup, List.mem_insertionSort]

/-- The sorted different codes are as many as the classes. -/
theorem codes_length {L : Type} [LinearOrder L] (y : List L) {cats : List ℚ}
    (h : SortedValues (y.map fun v => ((labelClasses y).idxOf v : ℚ)) cats) : cats.length = (labelClasses y).length := by
  obtain ⟨h1, h2⟩ := h
  have hnd : cats.Nodup := h1.imp fun h => ne_of_lt h
  have hnd2 : ((List.range (labelClasses y).length).map fun i : ℕ => (i : ℚ)).Nodup :=
    List.nodup_range.map Nat.cast_injective
  have hperm : cats.Perm ((List.range (labelClasses y).length).map fun i : ℕ => (i : ℚ)) := by
    rw [List.perm_ext_iff_of_nodup hnd hnd2]
    intro v
    rw [h2, List.mem_map, List.mem_map]
    constructor
    · rintro ⟨a, ha, rfl⟩
      exact ⟨_, List.mem_range.2 (List.idxOf_lt_length_iff.2 (((labelClasses_spec y).2 a).2 ha)), rfl⟩
    · rintro ⟨i, hi, rfl⟩
      rw [List.mem_range] at hi
      refine ⟨(labelClasses y)[i], ((labelClasses_spec y).2 _).1 (List.getElem_mem _), ?_⟩
      congr 1
      exact List.Nodup.idxOf_getElem ((labelClasses_spec y).1.imp fun h => ne_of_lt h) i hi
  rw [hperm.length_eq]; simp

/-! ### Standardisation leaves all other columns alone -/

theorem contColumns_spec {cols : List Str} {schema : List (Str × Alias)} {idxs : List ℕ} (h : contColumns cols schema = .ok idxs) :
    ∀ i ∈ idxs, ∃ c, cols[i]? = some c ∧ (c, Alias.cont) ∈ schema := by
  unfold contColumns at h
  have key : ∀ (l : List (Str × Alias)) (ls : List (List ℕ)), l.mapM (contColumn cols) = .ok ls →
      ∀ i ∈ ls.flatten, ∃ c, cols[i]? = some c ∧ (c, Alias.cont) ∈ l := by
    intro l
    induction l with
    | nil => intro ls hls; cases hls; simp
    | cons p l ih =>
      intro ls hls
      rw [List.mapM_cons] at hls
      cases hp : contColumn cols p with
      | error err => rw [hp] at hls; cases hls
      | ok a =>
        rw [hp] at hls
        cases hm : l.mapM (contColumn cols) with
        | error err => rw [hm] at hls; cases hls
        | ok as =>
          rw [hm] at hls
          cases hls
          intro i hi
          rw [List.flatten_cons, List.mem_append] at hi
          rcases hi with hi | hi
          · unfold contColumn at hp
            by_cases hc : p.2 = .cont
            · rw [if_pos hc] at hp
              cases hx : Notears.colIdx cols p.1 with
              | none => rw [hx] at hp; cases hp
              | some j =>
                rw [hx] at hp
                cases hp
                rw [List.mem_singleton] at hi
                subst hi
                exact ⟨p.1, Notears.colIdx_some hx, by rw [← hc]; exact List.mem_cons_self⟩
            · rw [if_neg hc] at hp
              cases hp
              simp at hi
          · obtain ⟨c, h1, h2⟩ := ih as hm i hi
            exact ⟨c, h1, List.mem_cons_of_mem _ h2⟩
  cases hm : schema.mapM (contColumn cols) with
  | error err => rw [hm] at h; cases h
  | ok ls =>
    rw [hm] at h
    cases h
    exact key schema ls hm

theorem scaleRow_other (cast : ℚ → ℚ) (idxs : List ℕ) (ss : List (ℚ × ℚ)) (row : List ℚ) {i : ℕ} (hi : i ∉ idxs) :
    (scaleRow cast idxs ss row).getD i 0 = row.getD i 0 := by
  unfold scaleRow
  have : ∀ (l : List (ℕ × (ℚ × ℚ))) (r : List ℚ), (∀ x ∈ l, x.1 ≠ i) →
      (l.foldl (fun r x => r.set x.1 (cast (scaleValue x.2 (row.getD x.1 0)))) r).getD i 0 = r.getD i 0 := by
    intro l
    induction l with
    | nil => intro r _; rfl
    | cons x l ih =>
      intro r hx
      rw [List.foldl_cons, ih _ fun x h => hx x (List.mem_cons_of_mem _ h)]
      rw [List.getD_eq_getElem?_getD, List.getElem?_set_ne (hx x List.mem_cons_self), ← List.getD_eq_getElem?_getD]
  refine this _ _ ?_
  rintro ⟨j, s⟩ hx rfl
  exact hi (List.of_mem_zip hx).1

theorem scaleValues_other {std : List ℚ → ℚ} {on : Bool} {tt : Option Alias} {schema : List (Str × Alias)} {cols : List Str}
    {X : List (List ℚ)} {y : List ℚ} {v : ScaledValues} (h : scaleValues std on tt schema cols X y = .ok v) :
    (∀ (i : ℕ) (c : Str), cols[i]? = some c → (c, Alias.cont) ∉ schema →
      v.X.map (fun r => r.getD i 0) = X.map (fun r => r.getD i 0) ∧ ∀ cast r, (scaleRow cast v.contIdx v.ssX r).getD i 0 = r.getD i 0) ∧
    (tt ≠ some .cont → v.y = y ∧ v.ssY = none) := by
  unfold scaleValues at h
  cases on
  · cases h
    exact ⟨fun i c _ _ => ⟨rfl, fun cast r => scaleRow_other _ _ _ _ (by simp)⟩, fun _ => ⟨rfl, rfl⟩⟩
  · rw [if_pos rfl] at h
    cases hc : contColumns cols schema with
    | error e => rw [hc] at h; cases h
    | ok idxs =>
      rw [hc] at h
      simp only at h
      have hnot : ∀ (i : ℕ) (c : Str), cols[i]? = some c → (c, Alias.cont) ∉ schema → i ∉ idxs := by
        intro i c hi hcs hmem
        obtain ⟨c', h1, h2⟩ := contColumns_spec hc i hmem
        rw [hi] at h1
        cases h1
        exact hcs h2
      have hcol : ∀ ss, ∀ (i : ℕ) (c : Str), cols[i]? = some c → (c, Alias.cont) ∉ schema →
          (X.map (scaleRow id idxs ss)).map (fun r => r.getD i 0) = X.map (fun r => r.getD i 0) ∧
          ∀ cast r, (scaleRow cast idxs ss r).getD i 0 = r.getD i 0 := by
        intro ss i c hi hcs
        refine ⟨?_, fun cast r => scaleRow_other _ _ _ _ (hnot i c hi hcs)⟩
        rw [List.map_map]
        exact List.map_congr_left fun r _ => scaleRow_other _ _ _ _ (hnot i c hi hcs)
      by_cases h0 : idxs = []
      · rw [if_pos h0] at h; cases h
      · rw [if_neg h0] at h
        by_cases ht : tt = some .cont
        · rw [if_pos ht] at h
          cases h
          exact ⟨hcol _, fun hn => absurd ht hn⟩
        · rw [if_neg ht] at h
          cases h
          exact ⟨hcol _, fun _ => ⟨rfl, rfl⟩⟩

theorem joined_columns {n : ℕ} : ∀ {X : List (List ℚ)} {y : List ℚ}, (∀ r ∈ X, r.length = n) → y.length = X.length →
    (∀ i < n, (List.zipWith (fun r (v : ℚ) => r ++ [v]) X y).map (fun r => r.getD i 0) = X.map fun r => r.getD i 0) ∧
    (List.zipWith (fun r (v : ℚ) => r ++ [v]) X y).map (fun r => r.getD n 0) = y := by
  intro X
  induction X with
  | nil => intro y _ hl; cases y with
    | nil => exact ⟨fun _ _ => rfl, rfl⟩
    | cons b y => simp at hl
  | cons a X ih =>
    intro y hr hl
    cases y with
    | nil => simp at hl
    | cons b y =>
      obtain ⟨h1, h2⟩ := ih (y := y) (fun r hr' => hr r (List.mem_cons_of_mem _ hr')) (by simpa using hl)
      have ha := hr a List.mem_cons_self
      rw [List.zipWith_cons_cons]
      refine ⟨fun i hi => ?_, ?_⟩
      · rw [List.map_cons, List.map_cons, h1 i hi]
        rw [List.getD_eq_getElem?_getD, List.getElem?_append_left (by omega), ← List.getD_eq_getElem?_getD]
      · rw [List.map_cons, h2]
        rw [List.getD_eq_getElem?_getD, List.getElem?_append_right (by omega), ha]
        simp

/-! ### Predictions of a fitted estimator -/

section
variable {ext : Ext} {e : Est} {h : Heap} {c : Call} {f : Fit}

/-- The dictionary of types in use: the one given to the constructor, or continuous types for all columns. -/
def usedSchema (e : Est) (h : Heap) (cols : List Str) : List (Str × Alias) :=
  schemaValue (e.params.schema.map fun r => h.schemas.getD r []) cols

/-- Predictions for data in terms of the training data. -/
theorem fits_predict (horder : ∀ es, (ext.order es).Perm es) (hw : c.WF e h) (hf : Fits ext e h c f)
    (hkey : ∀ r, e.params.schema = some r → targetName c.yname ∉ (h.schemas.getD r []).map Prod.fst)
    (hns : NoSuffix (c.cols ++ [targetName c.yname])) (hplain : ∀ p ∈ usedSchema e h c.cols, p.2 ≠ .ord)
    (hzero : e.targetType = some .cat ∨ e.targetType = some .ord → (0 : ℚ) ∈ h.series.getD c.y [])
    (htwo : e.targetType = some .ord → ∃ a ∈ h.series.getD c.y [], ∃ b ∈ h.series.getD c.y [], a ≠ b) :
    ∃ t, f.graph.distType f.target = some t ∧ t.idx = c.cols.length ∧ some t.alias = e.targetType ∧ t.cols.length ≠ 0 ∧
      (∀ i g cats, t = .cat i g cats → SortedValues (h.series.getD c.y []) cats ∧ g.length = cats.length) ∧
      (∀ i cats counts, t = .ord i cats counts → SortedValues (h.series.getD c.y []) cats ∧
        counts = cats.map fun v => (h.series.getD c.y []).count v) ∧
      (e.targetType ≠ some .cont → ∀ a, unscale e f a = a) ∧
      ∀ (isInt : Bool) (X : List (List ℚ)), (∀ r ∈ X, r.length = c.cols.length) →
        ((∀ r ∈ X, KnownRow c.cols (usedSchema e h c.cols) (h.tables.getD c.x []) r) →
          ∃ ys, basePredict { e with fitted := some f } isInt X = .ok ys ∧ List.Forall₂ (PredictionOf e f t isInt) X ys) ∧
        (¬ (∀ r ∈ X, KnownRow c.cols (usedSchema e h c.cols) (h.tables.getD c.x []) r) →
          basePredict { e with fitted := some f } isInt X = .error .valueError) := by
  obtain ⟨sc0, a0, g0, k1, k2, k3, -, k5, k6, k7, k8, k9, k10, k11, -, -, k12⟩ := fits_graph horder hw hf
  obtain ⟨sc, hsc, hlearn, -⟩ := fits_transform horder hw hf
  rw [k2] at hsc
  cases hsc
  rw [k6] at k3 k10 k11 hlearn
  obtain ⟨es, t, e1, e2, e3, e4, e5⟩ := fits_target_last horder hw hf (by rw [k6]; exact hkey)
  rw [k6] at e5
  have hnc : NoClash (c.cols ++ [f.target]) f.graph.encs := by rw [k6]; exact hns.noClash _
  obtain ⟨o1, o2⟩ := scaleValues_other k2
  have hshape := scaleValues_shape k2
  have hrect : ∀ r ∈ sc0.X, r.length = c.cols.length := by
    intro r hr
    have : r.length ∈ sc0.X.map List.length := List.mem_map_of_mem hr
    rw [hshape.1] at this
    obtain ⟨r', hr', heq⟩ := List.mem_map.1 this
    rw [← heq]; exact hw.rect r' hr'
  have hlen : sc0.y.length = sc0.X.length := by
    rw [hshape.2, k12]
    have := congrArg List.length hshape.1
    simpa using this.symm
  obtain ⟨j1, j2⟩ := joined_columns hrect hlen
  have hty : e.targetType ≠ some .cont → (joined c.cols (targetName c.yname) sc0.X sc0.y).values.column c.cols.length = h.series.getD c.y [] := by
    intro hn
    rw [← (o2 hn).1]
    exact j2
  have htmem : t ∈ f.graph.encs := by rw [e1]; simp
  have htl := hlearn t htmem
  have hcat : ∀ i g cats, t = .cat i g cats → SortedValues (h.series.getD c.y []) cats ∧ g.length = cats.length := by
    rintro i g cats rfl
    have hi : i = c.cols.length := e2
    rw [← hty (by rw [← e3]; intro hh; cases hh), ← hi]
    exact ⟨htl.1, htl.2.1⟩
  have hord' : ∀ i cats counts, t = .ord i cats counts → SortedValues (h.series.getD c.y []) cats ∧
        counts = cats.map fun v => (h.series.getD c.y []).count v := by
    rintro i cats counts rfl
    have hi : i = c.cols.length := e2
    rw [← hty (by rw [← e3]; intro hh; cases hh), ← hi]
    exact htl
  have hes : PlainFeatures es := by
    intro d hd
    have : ((c.cols ++ [targetName c.yname]).getD d.idx [], d.alias) ∈ usedSchema e h c.cols := by
      unfold usedSchema
      rw [← e5]
      exact List.mem_map.2 ⟨d, hd, rfl⟩
    exact hplain _ this
  have hodds : ∀ i cats counts, t = .ord i cats counts → logCumOdds counts ≠ [] := by
    intro i cats counts ht
    obtain ⟨q1, q2⟩ := hord' i cats counts ht
    obtain ⟨a, ha, b, hb, hab⟩ := htwo (by rw [← e3, ht]; rfl)
    refine (logCumOdds_ordered counts ?_ ?_).2.2
    · rw [q2, List.length_map]
      have ha' := (q1.2 a).2 ha
      have hb' := (q1.2 b).2 hb
      rcases hcats : cats with _ | ⟨x, _ | ⟨z, l⟩⟩
      · rw [hcats] at ha'; simp at ha'
      · rw [hcats, List.mem_singleton] at ha' hb'
        exact absurd (ha'.trans hb'.symm) hab
      · simp
    · intro n hn
      rw [q2] at hn
      obtain ⟨v, hv, rfl⟩ := List.mem_map.1 hn
      exact List.count_pos_iff.2 ((q1.2 v).1 hv)
  have hidx : ∀ d ∈ es, d.idx < c.cols.length := by
    intro d hd
    have h1 := e4.idx_lt (List.mem_append_left [t] hd)
    have h2 : d.idx ≠ t.idx := by
      have := e4.idx.nodup_iff.2 List.nodup_range
      rw [List.map_append, List.nodup_append] at this
      exact this.2.2 d.idx (List.mem_map_of_mem hd) t.idx (by simp)
    omega
  have hnames : ∀ d ∈ es, ∃ v, c.cols[d.idx]? = some v ∧ (v, d.alias) ∈ usedSchema e h c.cols := by
    intro d hd
    have hlt := hidx d hd
    refine ⟨c.cols[d.idx], List.getElem?_eq_getElem hlt, ?_⟩
    unfold usedSchema
    rw [← e5]
    refine List.mem_map.2 ⟨d, hd, ?_⟩
    rw [List.getD_eq_getElem?_getD, List.getElem?_append_left hlt, List.getElem?_eq_getElem hlt]
    rfl
  have hback : ∀ (i : ℕ) (v : Str) (a : Alias), c.cols[i]? = some v → (v, a) ∈ usedSchema e h c.cols → ∃ d ∈ es, d.idx = i ∧ d.alias = a := by
    intro i v a hi hv
    unfold usedSchema at hv
    rw [← e5] at hv
    obtain ⟨d, hd, hda⟩ := List.mem_map.1 hv
    simp only [Prod.mk.injEq] at hda
    refine ⟨d, hd, ?_, hda.2⟩
    have hlt := hidx d hd
    have h1 : c.cols[d.idx]? = some v := by
      have := hda.1
      rw [List.getD_eq_getElem?_getD, List.getElem?_append_left hlt, List.getElem?_eq_getElem hlt] at this
      rw [List.getElem?_eq_getElem hlt]
      exact congrArg some this
    obtain ⟨q1, q2⟩ := List.getElem?_eq_some_iff.1 h1
    obtain ⟨r1, r2⟩ := List.getElem?_eq_some_iff.1 hi
    exact (List.Nodup.getElem_inj_iff hw.nodup).1 (q2.trans r2.symm)
  have hkeys : ((usedSchema e h c.cols).map Prod.fst).Nodup := schemaValue_nodup hw.nodup hw.dict
  have hone : ∀ (v : Str) (a b : Alias), (v, a) ∈ usedSchema e h c.cols → (v, b) ∈ usedSchema e h c.cols → a = b := by
    intro v a b h1 h2
    have := List.inj_on_of_nodup_map hkeys h1 h2 rfl
    exact congrArg Prod.snd this
  -- the value of a column without standardisation
  have hval : ∀ (isInt : Bool) (r : List ℚ), r.length = c.cols.length → ∀ (i : ℕ) (v : Str), c.cols[i]? = some v →
      (v, Alias.cont) ∉ usedSchema e h c.cols → (inputRow e f isInt r).getD i 0 = r.getD i 0 := by
    intro isInt r hr i v hi hv
    have hlt : i < c.cols.length := (List.getElem?_eq_some_iff.1 hi).1
    unfold inputRow
    rw [k7, k8]
    split_ifs
    · rw [List.getD_eq_getElem?_getD, List.getElem?_append_left (by rw [scaleRow_length]; omega), ← List.getD_eq_getElem?_getD]
      exact (o1 i v hi hv).2 _ r
    · rw [List.getD_eq_getElem?_getD, List.getElem?_append_left (by rw [scaleRow_length]; omega), ← List.getD_eq_getElem?_getD]
      exact (o1 i v hi hv).2 _ r
    · rw [List.getD_eq_getElem?_getD, List.getElem?_append_left (by omega), ← List.getD_eq_getElem?_getD]
  have hlast : ∀ (isInt : Bool) (r : List ℚ), r.length = c.cols.length → (inputRow e f isInt r).getD c.cols.length 0 = 0 := by
    intro isInt r hr
    unfold inputRow
    split_ifs
    · rw [List.getD_eq_getElem?_getD, List.getElem?_append_right (by rw [scaleRow_length]; omega), scaleRow_length, hr]; simp
    · rw [List.getD_eq_getElem?_getD, List.getElem?_append_right (by rw [scaleRow_length]; omega), scaleRow_length, hr]; simp
    · rw [List.getD_eq_getElem?_getD, List.getElem?_append_right (by omega), hr]; simp
  have hacc : ∀ (isInt : Bool) (r : List ℚ), r.length = c.cols.length →
      ((∀ d ∈ f.graph.encs, d.Accepts (inputRow e f isInt r)) ↔ KnownRow c.cols (usedSchema e h c.cols) (h.tables.getD c.x []) r) := by
    intro isInt r hr
    have hcatcol : ∀ (i : ℕ) (v : Str), c.cols[i]? = some v → (v, Alias.cont) ∉ usedSchema e h c.cols →
        (joined c.cols (targetName c.yname) sc0.X sc0.y).values.column i = (h.tables.getD c.x []).map fun r => r.getD i 0 := by
      intro i v hi hv
      have := j1 i (List.getElem?_eq_some_iff.1 hi).1
      rw [(o1 i v hi hv).1] at this
      exact this
    constructor
    · intro hall i v hi
      constructor
      · intro hv
        obtain ⟨d, hd, q1, q2⟩ := hback i v _ hi hv
        have := hall d (by rw [e1]; exact List.mem_append_left _ hd)
        cases d with
        | poiss j =>
          have hj : j = i := q1
          subst hj
          change 0 ≤ (inputRow e f isInt r).getD j 0 at this
          rwa [hval isInt r hr j v hi (fun hc => by cases hone _ _ _ hv hc)] at this
        | _ => cases q2
      · intro hv
        obtain ⟨d, hd, q1, q2⟩ := hback i v _ hi hv
        have hde : d ∈ f.graph.encs := by rw [e1]; exact List.mem_append_left _ hd
        have := hall d hde
        have hl := hlearn d hde
        have hnc' : (v, Alias.cont) ∉ usedSchema e h c.cols := fun hc => by cases hone _ _ _ hv hc
        cases d with
        | cat j g cats =>
          have hj : j = i := q1
          subst hj
          change (inputRow e f isInt r).getD j 0 ∈ cats at this
          rw [hval isInt r hr j v hi hnc', hl.1.2, hcatcol j v hi hnc'] at this
          obtain ⟨r', hr', heq⟩ := List.mem_map.1 this
          exact ⟨r', hr', heq⟩
        | _ => cases q2
    · intro hk d hd
      rw [e1, List.mem_append, List.mem_singleton] at hd
      rcases hd with hd | rfl
      · obtain ⟨v, hv, hva⟩ := hnames d hd
        have hde : d ∈ f.graph.encs := by rw [e1]; exact List.mem_append_left _ hd
        have hl := hlearn d hde
        have hpl := hes d hd
        cases d with
        | cont j => trivial
        | bin j => trivial
        | poiss j =>
          change 0 ≤ (inputRow e f isInt r).getD j 0
          rw [hval isInt r hr j v hv (fun hc => by cases hone _ _ _ hva hc)]
          exact (hk j v hv).1 hva
        | cat j g cats =>
          have hnc' : (v, Alias.cont) ∉ usedSchema e h c.cols := fun hc => by cases hone _ _ _ hva hc
          change (inputRow e f isInt r).getD j 0 ∈ cats
          rw [hval isInt r hr j v hv hnc', hl.1.2]
          change _ ∈ (joined c.cols (targetName c.yname) sc0.X sc0.y).values.column j
          rw [hcatcol j v hv hnc']
          obtain ⟨r', hr', heq⟩ := (hk j v hv).2 hva
          exact List.mem_map.2 ⟨r', hr', heq⟩
        | ord j cats counts => exact absurd rfl hpl
      · cases d with
        | cont j => trivial
        | bin j => trivial
        | poiss j =>
          have hj : j = c.cols.length := e2
          change 0 ≤ (inputRow e f isInt r).getD j 0
          rw [hj, hlast isInt r hr]
        | cat j g cats =>
          have hj : j = c.cols.length := e2
          change (inputRow e f isInt r).getD j 0 ∈ cats
          rw [hj, hlast isInt r hr, (hcat j g cats rfl).1.2]
          exact hzero (Or.inl e3.symm)
        | ord j cats counts =>
          have hj : j = c.cols.length := e2
          change (inputRow e f isInt r).getD j 0 ∈ cats
          rw [hj, hlast isInt r hr, (hord' j cats counts rfl).1.2]
          exact hzero (Or.inr e3.symm)
  refine ⟨t, fits_node_type horder hw hf hnc htmem e2, e2, e3, ?_, hcat, hord', ?_, ?_⟩
  · have := e4.head t (by simp)
    intro h0
    rw [List.length_eq_zero_iff] at h0
    rw [h0] at this
    cases this
  · intro hn a
    unfold unscale
    rw [k9, (o2 hn).2]
    cases e.params.standardize <;> rfl
  · intro isInt X hX
    obtain ⟨b1, b2⟩ := basePredict_rows horder hw hf hnc e1 e4 e2 hes hodds isInt X hX
    have hiff : (∀ r ∈ X, ∀ d ∈ f.graph.encs, d.Accepts (inputRow e f isInt r)) ↔
        ∀ r ∈ X, KnownRow c.cols (usedSchema e h c.cols) (h.tables.getD c.x []) r :=
      forall₂_congr fun r hr => hacc isInt r (hX r hr)
    rw [hiff] at b1 b2
    exact ⟨b1, b2⟩

end

/-! ### Classifiers -/

/-- The parts of a successful `fit` of a classifier. -/
theorem clfFit_ok {L : Type} [LinearOrder L] {ext : Ext} {k k' : Clf L} {h h' : Heap} {cols : List Str} {x : ℕ} {yname : Option Str}
    {y : List L} (hfit : clfFit ext k h cols x yname y = (h', k', none)) :
    2 ≤ (labelClasses y).length ∧ k'.classes = labelClasses y ∧
    ∃ f, Fits ext { k.est with targetType := some (clfType k.est.targetType (labelClasses y).length) }
        { h with series := h.series ++ [y.map fun v => ((labelClasses y).idxOf v : ℚ)] } ⟨cols, x, h.series.length, yname⟩ f ∧
      k'.est = { k.est with targetType := some (clfType k.est.targetType (labelClasses y).length), fitted := some f } := by
  unfold clfFit at hfit
  simp only at hfit
  by_cases h0 : labelClasses y = []
  · rw [if_pos h0] at hfit; cases hfit
  · rw [if_neg h0] at hfit
    by_cases h2 : (labelClasses y).length < 2
    · rw [if_pos h2] at hfit; cases hfit
    · rw [if_neg h2] at hfit
      rw [show (h.series ++ [y.map fun v => ((labelClasses y).idxOf v : ℚ)]).length - 1 = h.series.length by simp] at hfit
      rcases baseFit_outcome ext { k.est with targetType := some (clfType k.est.targetType (labelClasses y).length) }
        { h with series := h.series ++ [y.map fun v => ((labelClasses y).idxOf v : ℚ)] } ⟨cols, x, h.series.length, yname⟩ with
        ⟨-, f, hf⟩ | ⟨err, F, hf⟩
      · have hf' := hf
        unfold Fits at hf'
        rw [hf'] at hfit
        simp only [Prod.mk.injEq] at hfit
        rw [← hfit.2.1]
        exact ⟨by omega, rfl, f, hf, rfl⟩
      · rw [hf] at hfit
        simp only [Prod.mk.injEq] at hfit
        cases hfit.2.2

/-- **C66**: after a successful `fit`, `classes_` are the sorted different labels. For data of the right shape `predict_proba` and
`predict` succeed exactly if counts are not negative and categories are known; then every row has a probability distribution over the
classes and the prediction is a class with the highest probability. Not covered: ordinal features (the code mixes up the columns) and an
earlier choice of a binary type for now more than two classes (the code then gives two columns). -/
theorem clf_predictions_partial {L : Type} [LinearOrder L] {ext : Ext} (horder : ∀ es, (ext.order es).Perm es) {k k' : Clf L} {h h' : Heap}
    {cols : List Str} {x : ℕ} {yname : Option Str} {y : List L} (hfit : clfFit ext k h cols x yname y = (h', k', none))
    (hw : WellFormed cols yname (h.tables.getD x []) (k.est.params.schema.map fun r => h.schemas.getD r []))
    (hkey : ∀ r, k.est.params.schema = some r → targetName yname ∉ (h.schemas.getD r []).map Prod.fst)
    (hns : NoSuffix (cols ++ [targetName yname])) (hplain : ∀ p ∈ usedSchema k.est h cols, p.2 ≠ .ord)
    (htype : TypeFits k.est.targetType k'.classes.length) :
    k'.classes.Pairwise (· < ·) ∧ (∀ c, c ∈ k'.classes ↔ c ∈ y) ∧
    ∀ (isInt : Bool) (X : List (List ℚ)), (∀ r ∈ X, r.length = cols.length) →
      ((∀ r ∈ X, KnownRow cols (usedSchema k.est h cols) (h.tables.getD x []) r) →
        ∃ ps ls, predictProba k' isInt X = .ok ps ∧ clfPredict k' isInt X = .ok ls ∧ ps.length = X.length ∧
          List.Forall₂ (fun p c => IsDistribution k'.classes.length p ∧ MostLikely k'.classes p c) ps ls) ∧
      (¬ (∀ r ∈ X, KnownRow cols (usedSchema k.est h cols) (h.tables.getD x []) r) →
        predictProba k' isInt X = .error .valueError ∧ clfPredict k' isInt X = .error .valueError) := by
  obtain ⟨h2, hc, f, hf, hk⟩ := clfFit_ok hfit
  obtain ⟨hs1, hs2⟩ := labelClasses_spec y
  rw [hc] at htype ⊢
  refine ⟨hs1, hs2, ?_⟩
  have hser : (h.series ++ [y.map fun v => ((labelClasses y).idxOf v : ℚ)]).getD h.series.length [] =
      y.map fun v => ((labelClasses y).idxOf v : ℚ) := by
    rw [List.getD_eq_getElem?_getD, List.getElem?_append_right le_rfl, Nat.sub_self]; rfl
  have hcode : ∀ i (hi : i < (labelClasses y).length), (i : ℚ) ∈ y.map fun v => ((labelClasses y).idxOf v : ℚ) := by
    intro i hi
    refine List.mem_map.2 ⟨(labelClasses y)[i], (hs2 _).1 (List.getElem_mem _), ?_⟩
    congr 1
    exact List.Nodup.idxOf_getElem (hs1.imp fun h => ne_of_lt h) i hi
  obtain ⟨t, t1, t2, t3, t4, t5, t6, t7, t8⟩ := fits_predict horder (e := { k.est with targetType := some (clfType k.est.targetType (labelClasses y).length) })
    (h := { h with series := h.series ++ [y.map fun v => ((labelClasses y).idxOf v : ℚ)] }) (c := ⟨cols, x, h.series.length, yname⟩) hw hf hkey hns hplain
    (by intro _; simp only [hser]; exact_mod_cast hcode 0 (by omega))
    (by
      intro _
      simp only [hser]
      refine ⟨((0 : ℕ) : ℚ), hcode 0 (by omega), ((1 : ℕ) : ℚ), hcode 1 (by omega), ?_⟩
      norm_num)
  simp only [hser] at t5 t6
  have hne : some (clfType k.est.targetType (labelClasses y).length) ≠ some Alias.cont := by
    unfold clfType
    rcases htype with h | ⟨h, -⟩ | h | h <;> rw [h]
    · simp only [Option.getD_none]; split_ifs <;> simp
    all_goals simp
  -- the probabilities of one row
  have hrow : ∀ isInt r v, PredictionOf { k.est with targetType := some (clfType k.est.targetType (labelClasses y).length) } f t isInt r v →
      IsDistribution (labelClasses y).length (if oneDim (some t) then twoColumns v else v) := by
    rintro isInt r v ⟨z, -, -, rfl⟩
    rw [show (unscale { k.est with targetType := some (clfType k.est.targetType (labelClasses y).length) } f) = id from funext (t7 hne),
      List.map_id]
    cases t with
    | cont i => exact absurd t3.symm hne
    | poiss i =>
      exfalso
      have : some Alias.poiss = some (clfType k.est.targetType (labelClasses y).length) := t3
      unfold clfType at this
      rcases htype with h | ⟨h, -⟩ | h | h <;> rw [h] at this
      · simp only [Option.getD_none] at this; split_ifs at this <;> simp at this
      all_goals simp at this
    | bin i =>
      have hn : (labelClasses y).length = 2 := by
        have : some Alias.bin = some (clfType k.est.targetType (labelClasses y).length) := t3
        unfold clfType at this
        rcases htype with h | ⟨h, h'⟩ | h | h
        · rw [h, Option.getD_none] at this
          by_cases hgt : (labelClasses y).length > 2
          · rw [if_pos hgt] at this; simp at this
          · omega
        · exact h'
        · rw [h] at this; simp at this
        · rw [h] at this; simp at this
      rw [hn]
      change IsDistribution 2 (twoColumns _)
      simp only [Enc.cols, encFitted, Fitted.response, List.map_cons, List.map_nil]
      set p := 1 / (1 + Real.exp (-forward f.graph.arch (f.graph.arch.net f.graph.params) (realRow z) i)) with hp
      have he := Real.exp_pos (-forward f.graph.arch (f.graph.arch.net f.graph.params) (realRow z) i)
      have hp0 : 0 < p := by rw [hp]; positivity
      have hp1 : p < 1 := by rw [hp, div_lt_one (by linarith)]; linarith
      change IsDistribution 2 [1 - p, p]
      refine ⟨rfl, ?_, by simp⟩
      intro a ha
      simp only [List.mem_cons, List.not_mem_nil, or_false] at ha
      rcases ha with rfl | rfl
      · linarith
      · exact hp0
    | cat i g cats =>
      obtain ⟨q1, q2⟩ := t5 i g cats rfl
      rw [← codes_length y q1, ← q2]
      change IsDistribution g.length (softmax (g.map _))
      have := softmax_distribution (g.map (forward f.graph.arch (f.graph.arch.net f.graph.params) (realRow z)))
        (by intro h0; rw [List.map_eq_nil_iff] at h0; exact t4 (by change g.length = 0; rw [h0]; rfl))
      rwa [List.length_map] at this
    | ord i cats counts =>
      obtain ⟨q1, q2⟩ := t6 i cats counts rfl
      have hcl : counts.length = (labelClasses y).length := by rw [q2, List.length_map]; exact codes_length y q1
      rw [← hcl]
      obtain ⟨p, p1, p2⟩ := (ordinal_fitted counts (by omega) (by
        intro n hn
        rw [q2] at hn
        obtain ⟨v, hv, rfl⟩ := List.mem_map.1 hn
        exact List.count_pos_iff.2 ((q1.2 v).1 hv))).1 0 [forward f.graph.arch (f.graph.arch.net f.graph.params) (realRow z) i] (by simp)
      change IsDistribution counts.length ((ordProbs (logCumOdds counts) (forward f.graph.arch (f.graph.arch.net f.graph.params) (realRow z) i)).getD [])
      have p1' : ordProbs (logCumOdds counts) (forward f.graph.arch (f.graph.arch.net f.graph.params) (realRow z) i) = some p := p1
      rw [p1']
      exact p2
  intro isInt X hX
  obtain ⟨b1, b2⟩ := t8 isInt X hX
  have hdt : (k'.est.fitted.bind fun f => f.graph.distType f.target) = some t := by rw [hk]; exact t1
  refine ⟨fun hacc => ?_, fun hacc => ?_⟩
  · obtain ⟨ys, y1, y2⟩ := b1 hacc
    rw [← hk] at y1
    have hproba : predictProba k' isInt X = .ok (ys.map fun v => if oneDim (some t) then twoColumns v else v) := by
      unfold predictProba
      rw [y1, hdt]
      cases oneDim (some t)
      · simp
      · simp
    have hdist : ∀ p ∈ (ys.map fun v => if oneDim (some t) then twoColumns v else v), IsDistribution (labelClasses y).length p := by
      intro p hp
      obtain ⟨v, hv, rfl⟩ := List.mem_map.1 hp
      obtain ⟨r, -, hr⟩ := forall₂_right y2 hv
      exact hrow isInt r v hr
    obtain ⟨ls, l1, l2⟩ := mapM_forall₂ (F := classOf k'.classes) (R := fun p c => IsDistribution (labelClasses y).length p ∧ MostLikely (labelClasses y) p c)
      (l := ys.map fun v => if oneDim (some t) then twoColumns v else v) (by
        intro p hp
        rw [hc]
        obtain ⟨c, c1, c2⟩ := classOf_spec (labelClasses y) h2 (hdist p hp)
        exact ⟨c, c1, hdist p hp, c2⟩)
    refine ⟨_, ls, hproba, ?_, by rw [List.length_map, y2.length_eq], l2⟩
    unfold clfPredict
    rw [hproba]
    exact l1
  · have y1 := b2 hacc
    rw [← hk] at y1
    have hproba : predictProba k' isInt X = .error .valueError := by unfold predictProba; rw [y1]
    exact ⟨hproba, by unfold clfPredict; rw [hproba]⟩

end Verif.Sklearn
