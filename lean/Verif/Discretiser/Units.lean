import Verif.Discretiser.Props

/-!
# C161: units of measurement do not matter to discretisation
-/

namespace Verif.Discretiser

section
variable {K : Type} [Field K] [LinearOrder K]

/-! ### Specification -/

/-- Specification: a discretiser whose split points, if it has any, are given in other units. -/
def inUnits (u : K → K) (d : Disc K) : Disc K := { d with numeric := d.numeric.map (List.map u) }

/-! ### Transforming -/

theorem sort_map {u : K → K} (hu : StrictMono u) (l : List K) :
    (l.map u).insertionSort (· ≤ ·) = (l.insertionSort (· ≤ ·)).map u :=
  (List.map_insertionSort (· ≤ ·) (· ≤ ·) u l fun _ _ _ _ => hu.le_iff_le.symm).symm

theorem sort_map' {u : K → K} (hu : StrictMono u) (l : List K) :
    (l.map u).insertionSort (· ≥ ·) = (l.insertionSort (· ≥ ·)).map u :=
  (List.map_insertionSort (· ≥ ·) (· ≥ ·) u l fun _ _ _ _ => hu.le_iff_le.symm).symm

theorem getD_map {u : K → K} {l : List K} {i : ℕ} (hi : i < l.length) : (l.map u).getD i 0 = u (l.getD i 0) := by
  rw [List.getD_eq_getElem _ _ (by simpa using hi), List.getD_eq_getElem _ _ hi, List.getElem_map]

theorem searchRight_map {u : K → K} (hu : StrictMono u) (bins : List K) (x : K) (fuel lo hi : ℕ) (h : hi ≤ bins.length) :
    searchRight (bins.map u) (u x) fuel lo hi = searchRight bins x fuel lo hi := by
  induction fuel generalizing lo hi with
  | zero => rfl
  | succ fuel ih =>
    unfold searchRight
    by_cases hlt : lo < hi
    · rw [if_pos hlt, if_pos hlt]
      dsimp only
      have hmid : lo + (hi - lo) / 2 < hi := by omega
      rw [getD_map (hmid.trans_le h)]
      by_cases hle : bins.getD (lo + (hi - lo) / 2) 0 ≤ x
      · rw [if_pos hle, if_pos (hu.le_iff_le.2 hle), ih _ _ h]
      · rw [if_neg hle, if_neg (fun h' => hle (hu.le_iff_le.1 h')), ih _ _ (hmid.le.trans h)]
    · rw [if_neg hlt, if_neg hlt]

theorem digitize_map {u : K → K} (hu : StrictMono u) (data bins : List K) : digitize (data.map u) (bins.map u) = digitize data bins := by
  have hinj : Function.Injective (List.map u) := List.map_injective_iff.2 hu.injective
  unfold digitize
  rw [sort_map hu, sort_map' hu, List.length_map, ← List.map_reverse]
  simp only [hinj.eq_iff, List.map_map, Function.comp_def]
  rw [List.map_congr_left fun x _ => searchRight_map hu bins x _ _ _ le_rfl,
    List.map_congr_left fun x _ => congrArg (bins.length - ·) (searchRight_map hu bins.reverse x _ _ _ (by rw [List.length_reverse]))]

/-- **C161**, transforming: with split points and values in other units, or changed by any strictly increasing function, the buckets are the same. -/
theorem transform_monotone {u : K → K} (hu : StrictMono u) (d : Disc K) (data : List K) :
    transform (inUnits u d) (data.map u) = transform d data := by
  unfold transform inUnits
  dsimp only
  cases d.numeric with
  | none => rfl
  | some bins => exact digitize_map hu data bins

/-! ### Fitting -/

theorem max_map {u : K → K} (hu : StrictMono u) (l : List K) : (l.map u).max? = l.max?.map u := by
  cases l with
  | nil => rfl
  | cons x l =>
    rw [List.map_cons, List.max?_cons', List.max?_cons', Option.map_some]
    congr 1
    induction l generalizing x with
    | nil => rfl
    | cons y l ih => rw [List.map_cons, List.foldl_cons, List.foldl_cons, ← hu.monotone.map_max, ih]

theorem min_map {u : K → K} (hu : StrictMono u) (l : List K) : (l.map u).min? = l.min?.map u := by
  cases l with
  | nil => rfl
  | cons x l =>
    rw [List.map_cons, List.min?_cons', List.min?_cons', Option.map_some]
    congr 1
    induction l generalizing x with
    | nil => rfl
    | cons y l ih => rw [List.map_cons, List.foldl_cons, List.foldl_cons, ← hu.monotone.map_min, ih]

variable [IsStrictOrderedRing K] [FloorSemiring K]

theorem quantile1_units {a b : K} (x : List K) (q : K) :
    quantile1 (x.map fun y => a * y + b) q = (quantile1 x q).map fun y => a * y + b := by
  unfold quantile1
  by_cases hq : 0 ≤ q ∧ q ≤ 1
  · rw [if_neg (not_not.2 hq), if_neg (not_not.2 hq)]
    by_cases hx : x = []
    · rw [if_pos hx, if_pos (by rw [hx]; rfl)]
      rfl
    · rw [if_neg hx, if_neg (by simpa using hx), List.length_map]
      have hlen := List.length_pos_iff.2 hx
      have hlo : ⌊q * ((x.length - 1 : ℕ) : K)⌋₊ ≤ x.length - 1 := by
        refine Nat.floor_le_of_le ?_
        exact mul_le_of_le_one_left (Nat.cast_nonneg _) hq.2
      dsimp only
      rw [getD_map (by omega), getD_map (by omega)]
      change Except.ok _ = Except.ok _
      congr 1
      ring
  · rw [if_pos hq, if_pos hq]
    rfl

theorem quantile_units {a b : K} (x qs : List K) :
    quantile (x.map fun y => a * y + b) qs = (quantile x qs).map (List.map fun y => a * y + b) := by
  unfold quantile
  induction qs with
  | nil => rfl
  | cons q qs ih =>
    rw [List.mapM_cons, List.mapM_cons, ih, quantile1_units]
    cases quantile1 x q with
    | error e => rfl
    | ok p =>
      cases List.mapM (quantile1 x) qs with
      | error e => rfl
      | ok l => rfl

theorem units_strictMono {a b : K} (ha : 0 < a) : StrictMono fun y : K => a * y + b := fun x y h => by
  have := mul_lt_mul_of_pos_left h ha
  dsimp only
  linarith

theorem fitPoints_units {a b : K} (ha : 0 < a) (d : Disc K) (data : List K) :
    fitPoints (inUnits (fun y => a * y + b) d) (data.map fun y => a * y + b) = (fitPoints d data).map (List.map fun y => a * y + b) := by
  have hu := units_strictMono (b := b) ha
  unfold fitPoints inUnits percentile
  dsimp only
  rw [sort_map hu]
  by_cases h1 : d.method = "uniform"
  · rw [if_pos h1, if_pos h1, max_map hu, min_map hu]
    cases d.numBuckets with
    | none => rfl
    | some n =>
      cases (data.insertionSort (· ≤ ·)).max? with
      | none => rfl
      | some mx =>
        cases (data.insertionSort (· ≤ ·)).min? with
        | none => rfl
        | some mn =>
          change Except.ok _ = Except.ok _
          congr 1
          rw [List.map_map]
          refine List.map_congr_left fun n _ => ?_
          dsimp only [Function.comp]
          ring
  · rw [if_neg h1, if_neg h1]
    by_cases h2 : d.method = "quantile"
    · rw [if_pos h2, if_pos h2]
      cases d.numBuckets with
      | none => rfl
      | some n =>
        dsimp only
        by_cases hn : n = 0
        · rw [if_pos hn, if_pos hn]
          rfl
        · rw [if_neg hn, if_neg hn, quantile_units]
    · rw [if_neg h2, if_neg h2]
      by_cases h3 : d.method = "outlier"
      · rw [if_pos h3, if_pos h3]
        cases d.outlier with
        | none => rfl
        | some o => exact quantile_units _ _
      · rw [if_neg h3, if_neg h3]
        by_cases h4 : d.method = "percentiles"
        · rw [if_pos h4, if_pos h4]
          cases d.percentiles with
          | none => rfl
          | some ps => exact quantile_units _ _
        · rw [if_neg h4, if_neg h4]
          rfl

/-- **C161**: the data fitted to are given in other units (any positive factor `a` and any offset `b`).  `fit` raises the same exception or succeeds
alike; then the split points are those before in the new units, and all values, in the new units, get the same buckets as before. -/
theorem fit_units {a b : K} (ha : 0 < a) (d : Disc K) (data : List K) :
    (fit (inUnits (fun y => a * y + b) d) (data.map fun y => a * y + b)).2 = (fit d data).2 ∧
    (fit (inUnits (fun y => a * y + b) d) (data.map fun y => a * y + b)).1 = inUnits (fun y => a * y + b) (fit d data).1 ∧
    (∀ new : List K, transform (fit (inUnits (fun y => a * y + b) d) (data.map fun y => a * y + b)).1 (new.map fun y => a * y + b) =
      transform (fit d data).1 new) ∧
    (fitTransform (inUnits (fun y => a * y + b) d) (data.map fun y => a * y + b)).2 = (fitTransform d data).2 := by
  have hu := units_strictMono (b := b) ha
  have h := fitPoints_units (b := b) ha d data
  have h12 : (fit (inUnits (fun y => a * y + b) d) (data.map fun y => a * y + b)).2 = (fit d data).2 ∧
      (fit (inUnits (fun y => a * y + b) d) (data.map fun y => a * y + b)).1 = inUnits (fun y => a * y + b) (fit d data).1 := by
    unfold fit
    rw [h]
    cases fitPoints d data with
    | error e => exact ⟨rfl, rfl⟩
    | ok l => exact ⟨rfl, rfl⟩
  have h3 : ∀ new : List K, transform (fit (inUnits (fun y => a * y + b) d) (data.map fun y => a * y + b)).1 (new.map fun y => a * y + b) =
      transform (fit d data).1 new := fun new => by rw [h12.2, transform_monotone hu]
  refine ⟨h12.1, h12.2, h3, ?_⟩
  have h4 := h3 data
  obtain ⟨h1, h2⟩ := h12
  unfold fitTransform
  generalize fit (inUnits (fun y => a * y + b) d) (data.map fun y => a * y + b) = p at *
  generalize fit d data = q at *
  obtain ⟨p1, p2⟩ := p
  obtain ⟨q1, q2⟩ := q
  dsimp only at h1 h2 h4
  subst h1
  cases p2 with
  | error e => rfl
  | ok x => exact h4

/-! ### Concrete cases -/

/-- Temperatures in degrees Celsius. -/
def exCelsius : List ℚ := [20, 5, 30, 10, 15]

/-- Degrees Fahrenheit. -/
theorem exFahrenheit : (exCelsius.map fun y : ℚ => 9 / 5 * y + 32) = [68, 41, 86, 50, 59] := by decide +kernel

/-- Three buckets: the split points are in the units of the data, the buckets are the same. -/
theorem units_example :
    (fitTransform { method := "quantile", numBuckets := some 3 } exCelsius).2 = .ok [2, 0, 2, 0, 1] ∧
    (fitTransform { method := "quantile", numBuckets := some 3 } ([68, 41, 86, 50, 59] : List ℚ)).2 = .ok [2, 0, 2, 0, 1] ∧
    (fit { method := "quantile", numBuckets := some 3 } exCelsius).1.numeric = some [35 / 3, 55 / 3] ∧
    (fit { method := "quantile", numBuckets := some 3 } ([68, 41, 86, 50, 59] : List ℚ)).1.numeric = some [53, 65] := by
  have h : (fitTransform { method := "quantile", numBuckets := some 3 } exCelsius).2 = .ok [2, 0, 2, 0, 1] := by decide +kernel
  refine ⟨h, ?_, by decide +kernel, by decide +kernel⟩
  rw [← exFahrenheit]
  exact (fit_units (a := (9 / 5 : ℚ)) (b := 32) (by norm_num) { method := "quantile", numBuckets := some 3 } exCelsius).2.2.2.trans h

/-- The factor has to be positive: turning the scale around turns the buckets around. -/
theorem negative_example :
    (fitTransform { method := "quantile", numBuckets := some 3 } (exCelsius.map fun y => -y)).2 = .ok [0, 2, 0, 2, 1] := by
  decide +kernel

/-- Quantiles between the data are interpolated, so with functions that are increasing but not linear the split points fitted are others. -/
theorem nonlinear_example :
    (fit { method := "quantile", numBuckets := some 2 } ([1, 3] : List ℚ)).1.numeric = some [2] ∧
    (fit { method := "quantile", numBuckets := some 2 } ([1 ^ 3, 3 ^ 3] : List ℚ)).1.numeric = some [14] := by
  refine ⟨by decide +kernel, by decide +kernel⟩

end

end Verif.Discretiser
