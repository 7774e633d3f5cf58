import Verif.Sklearn.PropsFailed
import Verif.Sklearn.Rows

/-!
# With `standardize=True` units of measurement do not matter (C157)
-/

namespace Verif.Sklearn

open Verif.Str Verif.Pytorch

/-! ### Specification -/

/-- Specification: a measure of spread, like the standard deviation: not negative, and in other units (`a * v + b` instead of `v`) it is
multiplied with the factor. -/
structure IsSpread (std : List ℚ → ℚ) : Prop where
  nonneg : ∀ l, 0 ≤ std l
  units : ∀ (l : List ℚ) (a b : ℚ), 0 < a → std (l.map fun v => a * v + b) = a * std l

/-- Specification: the column at position `i` has a continuous type. -/
def ContinuousAt (cols : List Str) (schema : List (Str × Alias)) (i : ℕ) : Prop := ∃ c, cols[i]? = some c ∧ (c, Alias.cont) ∈ schema

/-- Specification: the row `r'` is the row `r` with other units for the values at the positions in `C`. -/
def InUnits (C : ℕ → Prop) (a b : ℕ → ℚ) (r r' : List ℚ) : Prop :=
  r'.length = r.length ∧ (∀ i < r.length, C i → r'.getD i 0 = a i * r.getD i 0 + b i) ∧ ∀ i < r.length, ¬ C i → r'.getD i 0 = r.getD i 0

/-- A column of a list of rows. -/
def column (X : List (List ℚ)) (i : ℕ) : List ℚ := X.map fun r => r.getD i 0

/-! ### Scaling -/

theorem sum_units (l : List ℚ) (a b : ℚ) : (l.map fun v => a * v + b).sum = a * l.sum + l.length * b := by
  induction l with
  | nil => simp
  | cons x l ih => simp only [List.map_cons, List.sum_cons, ih, List.length_cons]; push_cast; ring

theorem scalerFit_units {std : List ℚ → ℚ} (hstd : IsSpread std) {l : List ℚ} (hl : l ≠ []) (hs : std l ≠ 0) {a : ℚ} (b : ℚ) (ha : 0 < a) :
    scalerFit std (l.map fun v => a * v + b) = (a * (scalerFit std l).1 + b, a * (scalerFit std l).2) := by
  have hn : (l.length : ℚ) ≠ 0 := by
    rw [Nat.cast_ne_zero]
    exact fun h => hl (List.length_eq_zero_iff.1 h)
  unfold scalerFit
  rw [hstd.units l a b ha, if_neg hs, if_neg (mul_ne_zero ha.ne' hs), sum_units, List.length_map]
  refine Prod.ext ?_ rfl
  simp only
  field_simp

theorem scaleValue_units (p : ℚ × ℚ) {a : ℚ} (b : ℚ) (ha : 0 < a) (v : ℚ) : scaleValue (a * p.1 + b, a * p.2) (a * v + b) = scaleValue p v := by
  unfold scaleValue
  simp only
  rw [show a * v + b - (a * p.1 + b) = a * (v - p.1) by ring, mul_div_mul_left _ _ ha.ne']

theorem foldl_set_congr {α : Type} {v w : α → ℚ} {k : α → ℕ} : ∀ (l : List α) (r r' : List ℚ), r'.length = r.length →
    (∀ x ∈ l, v x = w x) → (∀ j, j ∉ l.map k → r'[j]? = r[j]?) →
    l.foldl (fun r x => r.set (k x) (w x)) r' = l.foldl (fun r x => r.set (k x) (v x)) r := by
  intro l
  induction l with
  | nil => intro r r' _ _ h; exact List.ext_getElem? fun j => h j (by simp)
  | cons x l ih =>
    intro r r' hl hv h
    rw [List.foldl_cons, List.foldl_cons]
    refine ih _ _ (by simp [hl]) (fun y hy => hv y (List.mem_cons_of_mem _ hy)) fun j hj => ?_
    rw [List.getElem?_set, List.getElem?_set, hv x List.mem_cons_self, hl]
    by_cases hx : k x = j
    · rw [if_pos hx, if_pos hx]
    · rw [if_neg hx, if_neg hx]
      exact h j (by rw [List.map_cons, List.mem_cons, not_or]; exact ⟨fun e => hx e.symm, hj⟩)

/-- The scalers in other units. -/
def scalersIn (a b : ℕ → ℚ) (idxs : List ℕ) (ss : List (ℚ × ℚ)) : List (ℚ × ℚ) :=
  (idxs.zip ss).map fun x => (a x.1 * x.2.1 + b x.1, a x.1 * x.2.2)

theorem zip_scalersIn (a b : ℕ → ℚ) (idxs : List ℕ) (ss : List (ℚ × ℚ)) :
    idxs.zip (scalersIn a b idxs ss) = (idxs.zip ss).map fun x => (x.1, (a x.1 * x.2.1 + b x.1, a x.1 * x.2.2)) := by
  unfold scalersIn
  induction idxs generalizing ss with
  | nil => rfl
  | cons i idxs ih =>
    cases ss with
    | nil => rfl
    | cons s ss => simp only [List.zip_cons_cons, List.map_cons, ih]

/-- A row in other units is scaled to the same row. -/
theorem scaleRow_units (cast : ℚ → ℚ) {C : ℕ → Prop} {a b : ℕ → ℚ} (ha : ∀ i, C i → 0 < a i) {idxs : List ℕ} {ss : List (ℚ × ℚ)}
    (hss : ss.length = idxs.length) {n : ℕ} (hC : ∀ i < n, i ∈ idxs ↔ C i) (hlt : ∀ i ∈ idxs, i < n) {r r' : List ℚ} (hn : r.length = n)
    (h : InUnits C a b r r') : scaleRow cast idxs (scalersIn a b idxs ss) r' = scaleRow cast idxs ss r := by
  unfold scaleRow
  rw [zip_scalersIn, List.foldl_map]
  refine foldl_set_congr (k := Prod.fst) (v := fun x : ℕ × (ℚ × ℚ) => cast (scaleValue x.2 (r.getD x.1 0))) _ r r' h.1 ?_ ?_
  · intro x hx
    have hi : x.1 ∈ idxs := (List.of_mem_zip (show (x.1, x.2) ∈ _ from hx)).1
    have hc := (hC _ (hlt _ hi)).1 hi
    rw [h.2.1 x.1 (hn ▸ hlt _ hi) hc, scaleValue_units _ _ (ha _ hc)]
  · intro j hj
    rw [List.map_fst_zip hss.ge] at hj
    by_cases hjn : j < r.length
    · have := h.2.2 j hjn fun hc => hj ((hC j (hn ▸ hjn)).2 hc)
      rw [List.getD_eq_getElem?_getD, List.getD_eq_getElem?_getD, List.getElem?_eq_getElem hjn, List.getElem?_eq_getElem (h.1 ▸ hjn)] at this
      rw [List.getElem?_eq_getElem hjn, List.getElem?_eq_getElem (h.1 ▸ hjn)]
      exact congrArg some this
    · rw [List.getElem?_eq_none (l := r) (by omega), List.getElem?_eq_none (l := r') (by rw [h.1]; omega)]

theorem contColumns_mem {cols : List Str} {schema : List (Str × Alias)} {idxs : List ℕ} (hn : cols.Nodup)
    (h : contColumns cols schema = .ok idxs) (i : ℕ) : i ∈ idxs ↔ ContinuousAt cols schema i := by
  refine ⟨contColumns_spec h i, ?_⟩
  rintro ⟨c, hi, hc⟩
  rcases contColumns_total cols schema with ⟨-, h2⟩ | ⟨-, idxs', h2, h3⟩
  · rw [h] at h2; cases h2
  · rw [h] at h2
    cases h2
    have : some c ∈ (schema.filter fun p => p.2 = .cont).map fun p => some p.1 :=
      List.mem_map.2 ⟨(c, .cont), List.mem_filter.2 ⟨hc, by simp⟩, rfl⟩
    rw [← h3] at this
    obtain ⟨j, hj, e⟩ := List.mem_map.1 this
    obtain ⟨hi1, hi2⟩ := List.getElem?_eq_some_iff.1 hi
    obtain ⟨hj1, hj2⟩ := List.getElem?_eq_some_iff.1 e
    have : i = j := (hn.getElem_inj_iff).1 (hi2.trans hj2.symm)
    exact this ▸ hj

theorem forall₂_map_eq {α β : Type} {R : α → α → Prop} {f g : α → β} {l l' : List α} (h : List.Forall₂ R l l')
    (hfg : ∀ x ∈ l, ∀ x', R x x' → g x' = f x) : l'.map g = l.map f := by
  induction h with
  | nil => rfl
  | cons h1 _ ih =>
    rw [List.map_cons, List.map_cons, hfg _ List.mem_cons_self _ h1, ih fun x hx => hfg x (List.mem_cons_of_mem _ hx)]

/-! ### Fitting -/

/-- A fit in other units. -/
def Fit.inUnits (a b : ℕ → ℚ) (α β : ℚ) (f : Fit) : Fit :=
  { f with ssX := scalersIn a b f.contIdx f.ssX, ssY := f.ssY.map fun s => (α * s.1 + β, α * s.2) }

section
variable {cols : List Str} {schema : List (Str × Alias)} {X X' : List (List ℚ)} {y : List ℚ} {a b : ℕ → ℚ} {α β : ℚ} {tt : Option Alias}
  {std : List ℚ → ℚ}

theorem scaleValues_units (hstd : IsSpread std) (hn : cols.Nodup) (hr : ∀ r ∈ X, r.length = cols.length) (hX : X ≠ [])
    (hl : y.length = X.length) (ha : ∀ i, ContinuousAt cols schema i → 0 < a i) (hα : 0 < α)
    (hu : List.Forall₂ (InUnits (ContinuousAt cols schema) a b) X X')
    (hvar : ∀ i, ContinuousAt cols schema i → std (column X i) ≠ 0) (hvary : tt = some .cont → std y ≠ 0)
    (hy : tt ≠ some .cont → α = 1 ∧ β = 0) :
    scaleValues std true tt schema cols X' (y.map fun v => α * v + β) =
      (scaleValues std true tt schema cols X y).map fun sc =>
        { sc with ssX := scalersIn a b sc.contIdx sc.ssX, ssY := sc.ssY.map fun s => (α * s.1 + β, α * s.2) } := by
  unfold scaleValues
  rw [if_pos rfl, if_pos rfl]
  cases hc : contColumns cols schema with
  | error e => rfl
  | ok idxs =>
    simp only
    by_cases h0 : idxs = []
    · rw [if_pos h0, if_pos h0]; rfl
    rw [if_neg h0, if_neg h0]
    have hm := contColumns_mem hn hc
    have hlt : ∀ i ∈ idxs, i < cols.length := by
      intro i hi
      obtain ⟨c, h1, -⟩ := (hm i).1 hi
      exact (List.getElem?_eq_some_iff.1 h1).1
    have hy0 : y ≠ [] := by
      rintro rfl
      exact hX (List.length_eq_zero_iff.1 hl.symm)
    have hss : (idxs.map fun i => scalerFit std (X'.map fun r => r.getD i 0)) =
        scalersIn a b idxs (idxs.map fun i => scalerFit std (X.map fun r => r.getD i 0)) := by
      unfold scalersIn
      rw [← List.map_prod_left_eq_zip, List.map_map]
      refine List.map_congr_left fun i hi => ?_
      have hci := (hm i).1 hi
      have hcol : X'.map (fun r => r.getD i 0) = (X.map fun r => r.getD i 0).map fun v => a i * v + b i := by
        rw [List.map_map]
        exact forall₂_map_eq hu fun r hrX r' h => h.2.1 i (hr r hrX ▸ hlt i hi) hci
      rw [hcol]
      exact scalerFit_units hstd (by unfold column; simpa using hX) (hvar i hci) _ (ha i hci)
    have hrows : X'.map (scaleRow id idxs (scalersIn a b idxs (idxs.map fun i => scalerFit std (X.map fun r => r.getD i 0)))) =
        X.map (scaleRow id idxs (idxs.map fun i => scalerFit std (X.map fun r => r.getD i 0))) :=
      forall₂_map_eq hu fun r hrX r' h => scaleRow_units id ha (by simp) (fun i _ => hm i) hlt (hr r hrX) h
    rw [hss, hrows]
    by_cases ht : tt = some .cont
    · rw [if_pos ht, if_pos ht, scalerFit_units hstd hy0 (hvary ht) _ hα, List.map_map]
      have : (scaleValue (α * (scalerFit std y).1 + β, α * (scalerFit std y).2) ∘ fun v => α * v + β) = scaleValue (scalerFit std y) :=
        funext fun v => scaleValue_units _ _ hα v
      rw [this]
      rfl
    · rw [if_neg ht, if_neg ht]
      obtain ⟨rfl, rfl⟩ := hy ht
      have : (y.map fun v => 1 * v + 0) = y := by simp
      rw [this]
      rfl

end

theorem scaleValues_lengths {std : List ℚ → ℚ} {on : Bool} {tt : Option Alias} {schema : List (Str × Alias)} {cols : List Str}
    {X : List (List ℚ)} {y : List ℚ} {v : ScaledValues} (h : scaleValues std on tt schema cols X y = .ok v) (hon : on = true) :
    v.ssX.length = v.contIdx.length ∧ contColumns cols schema = .ok v.contIdx ∧ (v.ssY.isSome ↔ tt = some .cont) := by
  subst hon
  unfold scaleValues at h
  rw [if_pos rfl] at h
  cases hc : contColumns cols schema with
  | error e => rw [hc] at h; cases h
  | ok idxs =>
    rw [hc] at h
    simp only at h
    by_cases h0 : idxs = []
    · rw [if_pos h0] at h; cases h
    rw [if_neg h0] at h
    by_cases ht : tt = some .cont
    · rw [if_pos ht] at h; cases h; exact ⟨by simp, rfl, by simp [ht]⟩
    · rw [if_neg ht] at h; cases h; exact ⟨by simp, rfl, by simp [ht]⟩

theorem pureFit_units {ext : Ext} (hstd : IsSpread ext.std) {p : Params} (hp : p.standardize = true) {tt : Option Alias}
    {schema : Option (List (Str × Alias))} (parents : Option (List Str)) {cols : List Str} {X X' : List (List ℚ)} {y : List ℚ}
    (yname : Option Str) (hw : WellFormed cols yname X schema) {a b : ℕ → ℚ} {α β : ℚ}
    (ha : ∀ i, ContinuousAt cols (schemaValue schema cols) i → 0 < a i) (hα : 0 < α)
    (hu : List.Forall₂ (InUnits (ContinuousAt cols (schemaValue schema cols)) a b) X X')
    (hvar : ∀ i, ContinuousAt cols (schemaValue schema cols) i → ext.std (column X i) ≠ 0) (hvary : tt = some .cont → ext.std y ≠ 0)
    (hy : tt ≠ some .cont → α = 1 ∧ β = 0) :
    pureFit ext p tt schema parents cols X' (y.map fun v => α * v + β) yname =
      (pureFit ext p tt schema parents cols X y yname).map (Fit.inUnits a b α β) := by
  unfold pureFit
  rw [← hu.length_eq, List.length_map]
  by_cases h0 : X.length = 0 ∨ cols.length = 0 ∨ y.length ≠ X.length
  · rw [if_pos h0, if_pos h0]; rfl
  rw [if_neg h0, if_neg h0]
  push Not at h0
  rw [hp, scaleValues_units hstd hw.nodup hw.rect (fun h => h0.1 (by rw [h]; rfl)) h0.2.2 ha hα hu hvar hvary hy]
  cases scaleValues ext.std true tt (schemaValue schema cols) cols X y with
  | error e => rfl
  | ok sc =>
    cases tt with
    | none => rfl
    | some t =>
      simp only [Except.map]
      cases fromPandas ext.minimize ext.init ext.fuel ext.order (joined cols (targetName yname) sc.X sc.y)
            (learnArgs p (dictSet (schemaValue schema cols) (targetName yname) t)
              (parentsValue parents p.dependentTarget (targetName yname))) with
      | error e => rfl
      | ok g => rfl

/-! ### Predictions -/

theorem basePredict_units (e : Est) (hs : e.params.standardize = true) {f : Fit} {C : ℕ → Prop} {a b : ℕ → ℚ} (α β : ℚ)
    (ha : ∀ i, C i → 0 < a i) (hss : f.ssX.length = f.contIdx.length) (hC : ∀ i < f.features.length, i ∈ f.contIdx ↔ C i)
    (hlt : ∀ i ∈ f.contIdx, i < f.features.length) (isInt : Bool) {Z Z' : List (List ℚ)} (hr : ∀ r ∈ Z, r.length = f.features.length)
    (hz : List.Forall₂ (InUnits C a b) Z Z') :
    basePredict { e with fitted := some (f.inUnits a b α β) } isInt Z' =
      (basePredict { e with fitted := some f } isInt Z).map fun ys =>
        if f.ssY.isSome then ys.map fun v => v.map fun p => (α : ℝ) * p + β else ys := by
  unfold basePredict Fit.inUnits
  simp only [hs, if_true]
  by_cases hready : (true && !f.ready) = true
  · rw [if_pos hready, if_pos hready]; rfl
  rw [if_neg hready, if_neg hready]
  have hrows : Z'.map (scaleRow (if isInt = true then truncate else id) f.contIdx (scalersIn a b f.contIdx f.ssX)) =
      Z.map (scaleRow (if isInt = true then truncate else id) f.contIdx f.ssX) :=
    forall₂_map_eq hz fun r hrZ r' h => scaleRow_units _ ha hss hC hlt (hr r hrZ) h
  rw [hrows]
  cases reconstructData f.graph.arch f.graph.encs f.graph.params ⟨f.features.length + 1,
      (Z.map (scaleRow (if isInt = true then truncate else id) f.contIdx f.ssX)).map fun r => r ++ [0]⟩ with
  | error err => rfl
  | ok out =>
    simp only
    cases f.graph.distType f.target with
    | none => rfl
    | some t =>
      simp only
      cases out.mapM (readColumns (encFitted t)) with
      | error err => rfl
      | ok ys =>
        simp only
        cases f.ssY with
        | none => rfl
        | some s =>
          simp only [Option.map_some, Except.map, Option.isSome_some, if_true, List.map_map]
          congr 1
          refine List.map_congr_left fun v _ => ?_
          simp only [Function.comp, List.map_map]
          refine List.map_congr_left fun p _ => ?_
          simp only [Function.comp]
          push_cast
          ring

/-- Two calls of `fit` that differ in units only. -/
theorem baseFit_units {ext : Ext} (hstd : IsSpread ext.std) (e : Est) (hs : e.params.standardize = true) {h h' : Heap} {c : Call}
    {x' y' : ℕ} (hw : c.WF e h) (hls : h'.lists = h.lists) (hsc : h'.schemas = h.schemas) {a b : ℕ → ℚ} {α β : ℚ}
    (ha : ∀ i, ContinuousAt c.cols (usedSchema e h c.cols) i → 0 < a i) (hα : 0 < α)
    (hu : List.Forall₂ (InUnits (ContinuousAt c.cols (usedSchema e h c.cols)) a b) (h.tables.getD c.x []) (h'.tables.getD x' []))
    (hyu : h'.series.getD y' [] = (h.series.getD c.y []).map fun v => α * v + β)
    (hvar : ∀ i, ContinuousAt c.cols (usedSchema e h c.cols) i → ext.std (column (h.tables.getD c.x []) i) ≠ 0)
    (hvary : e.targetType = some .cont → ext.std (h.series.getD c.y []) ≠ 0) (hy : e.targetType ≠ some .cont → α = 1 ∧ β = 0) :
    (∃ f, (baseFit ext e h c).2 = ({ e with fitted := some f }, none) ∧
      (baseFit ext e h' { c with x := x', y := y' }).2 = ({ e with fitted := some (f.inUnits a b α β) }, none) ∧
      f.features = c.cols ∧ f.ssX.length = f.contIdx.length ∧ (f.ssY.isSome ↔ e.targetType = some .cont) ∧
      (∀ i, i ∈ f.contIdx ↔ ContinuousAt c.cols (usedSchema e h c.cols) i)) ∨
    ∃ err, (baseFit ext e h c).2.2 = some err ∧ (baseFit ext e h' { c with x := x', y := y' }).2.2 = some err := by
  have h1 := (baseFit_spec ext e h c).2
  have h2 := (baseFit_spec ext e h' { c with x := x', y := y' }).2
  have h3 := pureFit_units hstd hs (e.params.tabuParents.map fun r => h.lists.getD r []) c.yname hw ha hα hu hvar hvary hy
  rw [hls, hsc] at h2
  simp only at h2
  rw [hyu, h3] at h2
  cases hp : pureFit ext e.params e.targetType (e.params.schema.map fun r => h.schemas.getD r [])
    (e.params.tabuParents.map fun r => h.lists.getD r []) c.cols (h.tables.getD c.x []) (h.series.getD c.y []) c.yname with
  | error err =>
    rw [hp] at h1 h2
    exact Or.inr ⟨err, by rw [h1], by simp only [Except.map] at h2; rw [h2]⟩
  | ok f =>
    obtain ⟨sc, t, g, -, -, -, k4, k5, k6, k7, -⟩ := pureFit_ok hp hw
    rw [hp] at h1 h2
    obtain ⟨l1, l2, l3⟩ := scaleValues_lengths k4 hs
    refine Or.inl ⟨f, h1, h2, ?_⟩
    subst k7
    exact ⟨rfl, l1, l3, contColumns_mem hw.nodup l2⟩

/-- **C157** for `DAGRegressor`: with `standardize=True` the units of measurement do not matter. Change the units of the continuous features
(`a i * v + b i` instead of `v`) and of a continuous target (`α * v + β`). `fit` raises the same or succeeds for both; then the learned
graph, with all its edges, weights and coefficients, is the same, and for new data in the new units the predictions are the same in the
new units. -/
theorem reg_units {ext : Ext} (hstd : IsSpread ext.std) (e : Est) (hs : e.params.standardize = true) {h : Heap} {c : Call}
    {x' y' : ℕ} (hw : c.WF e h) {a b : ℕ → ℚ} {α β : ℚ}
    (ha : ∀ i, ContinuousAt c.cols (usedSchema e h c.cols) i → 0 < a i) (hα : 0 < α)
    (hu : List.Forall₂ (InUnits (ContinuousAt c.cols (usedSchema e h c.cols)) a b) (h.tables.getD c.x []) (h.tables.getD x' []))
    (hyu : h.series.getD y' [] = (h.series.getD c.y []).map fun v => α * v + β)
    (hvar : ∀ i, ContinuousAt c.cols (usedSchema e h c.cols) i → ext.std (column (h.tables.getD c.x []) i) ≠ 0)
    (hcont : e.targetType.getD .cont = .cont ∧ ext.std (h.series.getD c.y []) ≠ 0 ∨ e.targetType.getD .cont ≠ .cont ∧ α = 1 ∧ β = 0) :
    let fit₁ := regFit ext e h c
    let fit₂ := regFit ext e h { c with x := x', y := y' }
    fit₁.2.2 = fit₂.2.2 ∧
    (fit₁.2.2 = none →
      (∃ f f', fit₁.2.1.fitted = some f ∧ fit₂.2.1.fitted = some f' ∧ f'.graph = f.graph ∧ f'.features = f.features ∧ f'.target = f.target) ∧
      ∀ isInt Z Z', (∀ r ∈ Z, r.length = c.cols.length) → List.Forall₂ (InUnits (ContinuousAt c.cols (usedSchema e h c.cols)) a b) Z Z' →
        basePredict fit₂.2.1 isInt Z' = (basePredict fit₁.2.1 isInt Z).map fun ys => ys.map fun v => v.map fun p => (α : ℝ) * p + β) := by
  intro fit₁ fit₂
  rcases baseFit_units hstd { e with targetType := some (e.targetType.getD .cont) } hs (h' := h) hw rfl rfl ha hα hu hyu hvar
    (by
      intro ht
      rcases hcont with ⟨-, h2⟩ | ⟨h1, -⟩
      · exact h2
      · exact absurd (Option.some.inj ht) h1)
    (by
      intro ht
      rcases hcont with ⟨h1, -⟩ | ⟨-, h2⟩
      · exact absurd (congrArg some h1) ht
      · exact h2) with ⟨f, h1, h2, h3, h4, h5, h6⟩ | ⟨err, h1, h2⟩
  · change fit₁.2 = _ at h1
    change fit₂.2 = _ at h2
    rw [h1, h2]
    refine ⟨rfl, fun _ => ⟨⟨f, _, rfl, rfl, rfl, rfl, rfl⟩, fun isInt Z Z' hr hz => ?_⟩⟩
    have hb := basePredict_units { e with targetType := some (e.targetType.getD .cont) } hs α β ha h4 (fun i _ => h6 i) (by
      intro i hi
      obtain ⟨n, h7, -⟩ := (h6 i).1 hi
      rw [h3]
      exact (List.getElem?_eq_some_iff.1 h7).1) isInt (h3 ▸ hr) hz
    simp only at hb ⊢
    rw [hb]
    rcases hcont with ⟨hc1, -⟩ | ⟨hc1, rfl, rfl⟩
    · have : f.ssY.isSome = true := h5.2 (congrArg some hc1)
      simp only [this, if_true]
    · congr 1
      funext ys
      simp
  · change fit₁.2.2 = _ at h1
    change fit₂.2.2 = _ at h2
    rw [h1, h2]
    exact ⟨rfl, fun h => by cases h⟩

/-- **C157** for `DAGClassifier`: as for the regressor; the probabilities and the predicted labels for new data in the new units are the
same. -/
theorem clf_units {L : Type} [LinearOrder L] {ext : Ext} (hstd : IsSpread ext.std) (k : Clf L) (hs : k.est.params.standardize = true)
    (hk : ∀ t, k.est.targetType = some t → t ≠ .cont) {h : Heap}
    {cols : List Str} {x x' : ℕ} {yname : Option Str} {y : List L}
    (hw : WellFormed cols yname (h.tables.getD x []) (k.est.params.schema.map fun r => h.schemas.getD r [])) {a b : ℕ → ℚ}
    (ha : ∀ i, ContinuousAt cols (usedSchema k.est h cols) i → 0 < a i)
    (hu : List.Forall₂ (InUnits (ContinuousAt cols (usedSchema k.est h cols)) a b) (h.tables.getD x []) (h.tables.getD x' []))
    (hvar : ∀ i, ContinuousAt cols (usedSchema k.est h cols) i → ext.std (column (h.tables.getD x []) i) ≠ 0) :
    let fit₁ := clfFit ext k h cols x yname y
    let fit₂ := clfFit ext k h cols x' yname y
    fit₁.2.2 = fit₂.2.2 ∧ fit₁.2.1.classes = fit₂.2.1.classes ∧
    (fit₁.2.2 = none →
      (∃ f f', fit₁.2.1.est.fitted = some f ∧ fit₂.2.1.est.fitted = some f' ∧ f'.graph = f.graph ∧ f'.features = f.features ∧
        f'.target = f.target) ∧
      ∀ isInt Z Z', (∀ r ∈ Z, r.length = cols.length) → List.Forall₂ (InUnits (ContinuousAt cols (usedSchema k.est h cols)) a b) Z Z' →
        predictProba fit₂.2.1 isInt Z' = predictProba fit₁.2.1 isInt Z ∧ clfPredict fit₂.2.1 isInt Z' = clfPredict fit₁.2.1 isInt Z) := by
  intro fit₁ fit₂
  have e1 : fit₁ = clfFit ext k h cols x yname y := rfl
  have e2 : fit₂ = clfFit ext k h cols x' yname y := rfl
  unfold clfFit at e1 e2
  by_cases h0 : labelClasses y = []
  · rw [if_pos h0] at e1 e2
    rw [e1, e2]
    exact ⟨rfl, rfl, fun h => by cases h⟩
  rw [if_neg h0] at e1 e2
  by_cases h2 : (labelClasses y).length < 2
  · rw [if_pos h2] at e1 e2
    rw [e1, e2]
    exact ⟨rfl, rfl, fun h => by cases h⟩
  rw [if_neg h2] at e1 e2
  simp only [List.length_append, List.length_singleton, Nat.add_sub_cancel] at e1 e2
  have htt : some (clfType k.est.targetType (labelClasses y).length) ≠ some Alias.cont := by
    unfold clfType
    intro he
    cases ht : k.est.targetType with
    | none => rw [ht] at he; simp only [Option.getD_none, Option.some.injEq] at he; split_ifs at he
    | some t => rw [ht] at he; exact hk t ht (Option.some.inj he)
  have hb := baseFit_units hstd { k.est with targetType := some (clfType k.est.targetType (labelClasses y).length) } hs
    (h := { h with series := h.series ++ [y.map fun v => ((labelClasses y).idxOf v : ℚ)] })
    (h' := { h with series := h.series ++ [y.map fun v => ((labelClasses y).idxOf v : ℚ)] })
    (c := ⟨cols, x, h.series.length, yname⟩) (x' := x') (y' := h.series.length) (α := 1) (β := 0) hw rfl rfl ha one_pos hu
    (by simp) hvar (fun ht => absurd ht htt) (fun _ => ⟨rfl, rfl⟩)
  simp only at hb
  rcases hb with ⟨f, h1, h2, h3, h4, h5, h6⟩ | ⟨err, h1, h2⟩
  · rw [e1, e2]
    simp only [h1, h2]
    refine ⟨trivial, trivial, fun _ => ⟨⟨f, _, rfl, rfl, rfl, rfl, rfl⟩, fun isInt Z Z' hr hz => ?_⟩⟩
    have hp := basePredict_units { k.est with targetType := some (clfType k.est.targetType (labelClasses y).length) } hs 1 0 ha h4
      (fun i _ => h6 i) (by
        intro i hi
        obtain ⟨n, h7, -⟩ := (h6 i).1 hi
        rw [h3]
        exact (List.getElem?_eq_some_iff.1 h7).1) isInt (h3 ▸ hr) hz
    have hid : ∀ r : Except Err (List (List ℝ)), (r.map fun ys => if f.ssY.isSome then ys.map fun v => v.map fun p => ((1 : ℚ) : ℝ) * p + ((0 : ℚ) : ℝ)
        else ys) = r := by
      intro r
      cases r <;> simp [Except.map]
    rw [hid] at hp
    simp only at hp
    have hq : ∀ cl : List L, predictProba (Clf.mk (Est.mk k.est.params (some (clfType k.est.targetType (labelClasses y).length))
          (some (f.inUnits a b 1 0))) cl) isInt Z' =
        predictProba (Clf.mk (Est.mk k.est.params (some (clfType k.est.targetType (labelClasses y).length)) (some f)) cl) isInt Z := by
      intro cl
      unfold predictProba
      simp only
      rw [hp]
      rfl
    refine ⟨hq _, ?_⟩
    unfold clfPredict
    simp only
    rw [hq]
  · rw [e1, e2]
    simp only [h1, h2]
    exact ⟨trivial, trivial, fun h => by cases h⟩

/-! ### What standardised data are -/

/-- Specification: `l'` is `l` in units for which the mean is zero and the spread is one. -/
def Standardized (std : List ℚ → ℚ) (l l' : List ℚ) : Prop :=
  ∃ a b : ℚ, 0 < a ∧ l' = l.map (fun v => a * v + b) ∧ l'.sum = 0 ∧ std l' = 1

theorem standardized_scaleValue {std : List ℚ → ℚ} (hstd : IsSpread std) {l : List ℚ} (hl : l ≠ []) (hs : std l ≠ 0) :
    Standardized std l (l.map (scaleValue (scalerFit std l))) := by
  have hpos : 0 < std l := lt_of_le_of_ne (hstd.nonneg l) (Ne.symm hs)
  have hn : (l.length : ℚ) ≠ 0 := by
    rw [Nat.cast_ne_zero]
    exact fun h => hl (List.length_eq_zero_iff.1 h)
  have he : l.map (scaleValue (scalerFit std l)) = l.map fun v => (std l)⁻¹ * v + -((std l)⁻¹ * (l.sum / l.length)) := by
    refine List.map_congr_left fun v _ => ?_
    unfold scaleValue scalerFit
    simp only
    rw [if_neg hs, div_eq_inv_mul]
    ring
  refine ⟨(std l)⁻¹, _, inv_pos.2 hpos, he, ?_, ?_⟩
  · rw [he, sum_units]
    field_simp
    ring
  · rw [he, hstd.units _ _ _ (inv_pos.2 hpos), inv_mul_cancel₀ hs]

theorem foldl_set_getElem? {α : Type} {v : ℕ → ℚ} {k : α → ℕ} {w : α → ℚ} : ∀ (l : List α) (r : List ℚ) (j : ℕ), (∀ x ∈ l, w x = v (k x)) →
    (l.foldl (fun r x => r.set (k x) (w x)) r)[j]? = if j ∈ l.map k then r[j]?.map (fun _ => v j) else r[j]? := by
  intro l
  induction l with
  | nil => intro r j _; simp
  | cons x l ih =>
    intro r j hw
    rw [List.foldl_cons, ih _ _ fun y hy => hw y (List.mem_cons_of_mem _ hy), List.getElem?_set, hw x List.mem_cons_self]
    by_cases hx : k x = j
    · subst hx
      have hm : k x ∈ (x :: l).map k := by simp
      rw [if_pos rfl, if_pos hm]
      by_cases hlt : k x < r.length
      · rw [if_pos hlt, List.getElem?_eq_getElem hlt]; simp
      · rw [if_neg hlt, List.getElem?_eq_none (by omega)]; simp
    · rw [if_neg hx]
      have : j ∈ (x :: l).map k ↔ j ∈ l.map k := by
        rw [List.map_cons, List.mem_cons]
        exact ⟨fun h => h.resolve_left fun e => hx e.symm, Or.inr⟩
      simp only [this]

theorem scaleRow_at (g : ℕ → ℚ × ℚ) (idxs : List ℕ) (r : List ℚ) {i : ℕ} (hi : i ∈ idxs) (hlt : i < r.length) :
    (scaleRow id idxs (idxs.map g) r).getD i 0 = scaleValue (g i) (r.getD i 0) := by
  unfold scaleRow
  rw [← List.map_prod_left_eq_zip, List.getD_eq_getElem?_getD,
    foldl_set_getElem? (k := Prod.fst) (v := fun i => scaleValue (g i) (r.getD i 0)) _ _ _ (by
      intro x hx
      obtain ⟨i, -, rfl⟩ := List.mem_map.1 hx
      rfl), if_pos (by rw [List.map_map]; exact List.mem_map.2 ⟨i, hi, rfl⟩), List.getElem?_eq_getElem hlt]
  rfl

theorem scaleValues_standardized {std : List ℚ → ℚ} (hstd : IsSpread std) {tt : Option Alias} {schema : List (Str × Alias)} {cols : List Str}
    {X : List (List ℚ)} {y : List ℚ} (hn : cols.Nodup) (hr : ∀ r ∈ X, r.length = cols.length) (hX : X ≠ []) (hl : y.length = X.length)
    {v : ScaledValues} (h : scaleValues std true tt schema cols X y = .ok v) :
    (∀ i, ContinuousAt cols schema i → std (column X i) ≠ 0 → Standardized std (column X i) (column v.X i)) ∧
    (∀ i, ¬ ContinuousAt cols schema i → column v.X i = column X i) ∧
    (tt = some .cont → std y ≠ 0 → Standardized std y v.y) ∧ (tt ≠ some .cont → v.y = y) := by
  have hy0 : y ≠ [] := by
    rintro rfl
    exact hX (List.length_eq_zero_iff.1 hl.symm)
  unfold scaleValues at h
  rw [if_pos rfl] at h
  cases hc : contColumns cols schema with
  | error e => rw [hc] at h; cases h
  | ok idxs =>
    rw [hc] at h
    simp only at h
    by_cases h0 : idxs = []
    · rw [if_pos h0] at h; cases h
    rw [if_neg h0] at h
    have hm := contColumns_mem hn hc
    have hcols : v.X = X.map (scaleRow id idxs (idxs.map fun i => scalerFit std (column X i))) := by
      by_cases ht : tt = some .cont
      · rw [if_pos ht] at h; cases h; rfl
      · rw [if_neg ht] at h; cases h; rfl
    refine ⟨fun i hi hs => ?_, fun i hi => ?_, fun ht hs => ?_, fun ht => ?_⟩
    · have hlt : i < cols.length := by
        obtain ⟨c, h1, -⟩ := hi
        exact (List.getElem?_eq_some_iff.1 h1).1
      have : column v.X i = (column X i).map (scaleValue (scalerFit std (column X i))) := by
        rw [hcols]
        unfold column
        rw [List.map_map, List.map_map]
        exact List.map_congr_left fun r hrX => scaleRow_at _ _ _ ((hm i).2 hi) (hr r hrX ▸ hlt)
      rw [this]
      exact standardized_scaleValue hstd (by unfold column; simpa using hX) hs
    · rw [hcols]
      unfold column
      rw [List.map_map]
      exact List.map_congr_left fun r _ => scaleRow_other _ _ _ _ fun h => hi ((hm i).1 h)
    · rw [if_pos ht] at h
      cases h
      exact standardized_scaleValue hstd hy0 hs
    · rw [if_neg ht] at h
      cases h
      rfl

/-- **C157**, what is learned from: with `standardize=True` a fit that succeeds has learned its graph from a table with the same rows in which
every continuous column (and a continuous target) is standardised, unless it is constant, and all other columns are as they were. -/
theorem fits_standardized {ext : Ext} (hstd : IsSpread ext.std) (horder : ∀ es, (ext.order es).Perm es) {e : Est}
    (hs : e.params.standardize = true) {h : Heap} {c : Call} {f : Fit} (hw : c.WF e h) (hf : Fits ext e h c f) :
    ∃ X' y' args g, fromPandas ext.minimize ext.init ext.fuel ext.order (joined c.cols f.target X' y') args = .ok g ∧
      f.graph = (if e.params.enforceDag then { g with edges := tillDag g.edges.length g.edges } else g) ∧
      (∀ i, ContinuousAt c.cols (usedSchema e h c.cols) i → ext.std (column (h.tables.getD c.x []) i) ≠ 0 →
        Standardized ext.std (column (h.tables.getD c.x []) i) (column X' i)) ∧
      (∀ i, ¬ ContinuousAt c.cols (usedSchema e h c.cols) i → column X' i = column (h.tables.getD c.x []) i) ∧
      (e.targetType = some .cont → ext.std (h.series.getD c.y []) ≠ 0 → Standardized ext.std (h.series.getD c.y []) y') ∧
      (e.targetType ≠ some .cont → y' = h.series.getD c.y []) := by
  obtain ⟨sc, t, g, h1, h2, h3, h4, -, -, -, -, -, -, -, -, h5, h6⟩ := fits_graph horder hw hf
  rw [hs] at h2
  exact ⟨sc.X, sc.y, _, g, h3, h4, scaleValues_standardized hstd hw.nodup hw.rect h5 h6 h2⟩

end Verif.Sklearn
