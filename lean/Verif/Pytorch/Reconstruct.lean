import Verif.Pytorch.LinkProps

/-!
# Reconstructing all columns in turn (C64)
-/

namespace Verif.Pytorch

/-- Specification: the values a type reports for its own latent values. -/
noncomputable def Fitted.response : Fitted → List ℝ → List ℝ
  | .cont _, v => v
  | .bin _, v => v.map fun a => 1 / (1 + Real.exp (-a))
  | .poiss _, v => v.map Real.exp
  | .cat _, v => v.map fun a => Real.exp a / (v.map Real.exp).sum
  | .ord _ odds, v => (ordProbs odds (v.getD 0 0)).getD []

/-- Specification: the type keeps the shape of the data. -/
def Fitted.Plain : Fitted → Prop
  | .ord _ _ => False
  | _ => True

/-- Specification: the columns exist and are different. -/
def Fitted.Valid (n : ℕ) (t : Fitted) : Prop := t.cols.Nodup ∧ ∀ i ∈ t.cols, i < n

theorem gather_congr (g : List ℕ) (r s : List ℝ) (h : ∀ i ∈ g, r[i]? = s[i]?) : gather g r = gather g s := by
  induction g with
  | nil => rfl
  | cons i g ih =>
    have := ih fun k hk => h k (by simp [hk])
    simp only [gather, List.mapM_cons] at this ⊢
    rw [this, h i (by simp)]

/-- One type: only its columns change, to its response. -/
theorem inverseLink_plain (t : Fitted) (row : List ℝ) (hp : t.Plain) (hv : t.Valid row.length) :
    ∃ out v, inverseLink t row = some out ∧ gather t.cols row = some v ∧ gather t.cols out = some (t.response v) ∧
      out.length = row.length ∧ ∀ k, k ∉ t.cols → out[k]? = row[k]? := by
  have single : ∀ (idx : ℕ) (r : List ℝ), idx < r.length → gather [idx] r = some [r.getD idx 0] := by
    intro idx r h; simp [gather, h]
  cases t with
  | cont idx =>
    have hi : idx < row.length := hv.2 idx (by simp [Fitted.cols])
    exact ⟨row, _, rfl, single idx row hi, single idx row hi, rfl, fun _ _ => rfl⟩
  | bin idx =>
    have hi : idx < row.length := hv.2 idx (by simp [Fitted.cols])
    refine ⟨row.set idx (Real.sigmoid (row.getD idx 0)), _, by simp [inverseLink, mapAt, hi], single idx row hi, ?_, by simp, ?_⟩
    · rw [Fitted.cols, single idx _ (by simpa using hi)]
      simp [Fitted.response, hi, Real.sigmoid_def]
    · intro k hk
      exact List.getElem?_set_ne (fun h => hk (by simp [Fitted.cols, h]))
  | poiss idx =>
    have hi : idx < row.length := hv.2 idx (by simp [Fitted.cols])
    refine ⟨row.set idx (Real.exp (row.getD idx 0)), _, by simp [inverseLink, mapAt, hi], single idx row hi, ?_, by simp, ?_⟩
    · rw [Fitted.cols, single idx _ (by simpa using hi)]
      simp [Fitted.response, hi]
    · intro k hk
      exact List.getElem?_set_ne (fun h => hk (by simp [Fitted.cols, h]))
  | cat g =>
    obtain ⟨v, hv', hl, _⟩ := gather_some g row hv.2
    refine ⟨scatter g (softmax v) row, v, by simp [inverseLink, hv'], hv',
      gather_scatter g _ row hv.1 hv.2 (by simp [softmax, hl]), scatter_length _ _ _, fun k hk => scatter_other _ _ _ _ hk⟩
  | ord idx odds => exact absurd hp (by simp [Fitted.Plain])

theorem getColumns_gather (t : Fitted) (hp : t.Plain) (row : List ℝ) : getColumns t row = gather t.cols row := by
  cases t with
  | ord idx odds => exact absurd hp (by simp [Fitted.Plain])
  | cat g => rfl
  | cont idx => cases h : row[idx]? <;> simp [getColumns, gather, Fitted.cols, h]
  | bin idx => cases h : row[idx]? <;> simp [getColumns, gather, Fitted.cols, h]
  | poiss idx => cases h : row[idx]? <;> simp [getColumns, gather, Fitted.cols, h]

/-- **C64**: with types of disjoint columns that keep the shape of the data, every type reads off its own response to its own
latent values, whatever the other types do and in whatever order they come; columns without a type are unchanged. -/
theorem reconstruct_columns (ts : List Fitted) : ∀ (row : List ℝ), (∀ t ∈ ts, t.Plain) → (∀ t ∈ ts, t.Valid row.length) →
    ts.Pairwise (fun s t => ∀ i ∈ s.cols, i ∉ t.cols) →
    ∃ out, inverseLinks ts row = some out ∧ out.length = row.length ∧
      (∀ t ∈ ts, ∃ v, gather t.cols row = some v ∧ getColumns t out = some (t.response v)) ∧
      (∀ k, (∀ t ∈ ts, k ∉ t.cols) → out[k]? = row[k]?) := by
  induction ts with
  | nil => intro row _ _ _; exact ⟨row, rfl, rfl, by simp, fun _ _ => rfl⟩
  | cons t ts ih =>
    intro row hp hv hd
    rw [List.pairwise_cons] at hd
    obtain ⟨r1, v, h1, h2, h3, h4, h5⟩ := inverseLink_plain t row (hp t (by simp)) (hv t (by simp))
    obtain ⟨out, e1, e2, e3, e4⟩ := ih r1 (fun s hs => hp s (by simp [hs])) (fun s hs => by rw [h4]; exact hv s (by simp [hs])) hd.2
    refine ⟨out, by simp [inverseLinks, h1, e1], by rw [e2, h4], ?_, ?_⟩
    · intro s hs
      rcases List.mem_cons.1 hs with rfl | hs
      · refine ⟨v, h2, ?_⟩
        rw [getColumns_gather s (hp s (by simp)), ← h3]
        exact gather_congr _ _ _ fun i hi => e4 i fun u hu hiu => hd.1 u hu i hi hiu
      · obtain ⟨w, hw, hw'⟩ := e3 s hs
        refine ⟨w, ?_, hw'⟩
        rw [← hw]
        exact gather_congr _ _ _ fun i hi => (h5 i fun hit => hd.1 s hs i hit hi).symm
    · intro k hk
      rw [e4 k fun s hs => hk s (by simp [hs]), h5 k (hk t (by simp))]

/-- **C64**: an ordinal type that comes last (the target of the sklearn classes, added last to the schema) gets its probabilities
from its own latent value. -/
theorem reconstruct_ordinal_last (ts : List Fitted) (idx : ℕ) (odds row : List ℝ) (hp : ∀ t ∈ ts, t.Plain)
    (hv : ∀ t ∈ ts, t.Valid row.length) (hd : ts.Pairwise (fun s t => ∀ i ∈ s.cols, i ∉ t.cols)) (hi : idx < row.length)
    (hfree : ∀ t ∈ ts, idx ∉ t.cols) :
    inverseLinks (ts ++ [.ord idx odds]) row = ordProbs odds (row.getD idx 0) := by
  obtain ⟨out, e1, e2, _, e4⟩ := reconstruct_columns ts row hp hv hd
  have happ : ∀ (as : List Fitted) (r : List ℝ) (b : Fitted),
      inverseLinks (as ++ [b]) r = (inverseLinks as r).bind (inverseLink b) := by
    intro as
    induction as with
    | nil => intro r b; simp only [List.nil_append, inverseLinks, Option.bind_some]; cases inverseLink b r <;> rfl
    | cons a as ih => intro r b; simp [inverseLinks, ih, Option.bind_assoc]
  rw [happ, e1]
  simp [inverseLink, e4 idx hfree, hi]

/-- An ordinal type that is not last replaces the data by its probabilities, and the types after it act on those: here the
binary column of the row `[0, 5]` is reported as `sigmoid (1/2)` instead of `sigmoid 5`. -/
theorem ordinal_not_last : ∃ (row out : List ℝ), inverseLinks [.ord 0 [0], .bin 1] row = some out ∧
    getColumns (.bin 1) out ≠ some ((Fitted.bin 1).response [row.getD 1 0]) := by
  have hh : Real.sigmoid 0 = 1 / 2 := by rw [Real.sigmoid_def]; norm_num
  refine ⟨[0, 5], [1 / 2, Real.sigmoid (1 / 2)], ?_, ?_⟩
  · have : ordProbs [0] 0 = some [1 / 2, 1 / 2] := by
      rw [ordProbs_eq _ _ (by simp)]; simp only [List.map_cons, List.map_nil, sub_zero, hh, steps]; norm_num
    simp only [inverseLinks, inverseLink, List.getElem?_cons_zero, Option.bind_some, this, mapAt, List.getElem?_cons_succ,
      Option.map_some, List.set_cons_succ, List.set_cons_zero]
  · simp only [getColumns, List.getElem?_cons_succ, List.getElem?_cons_zero, Option.map_some, Fitted.response, List.map_cons,
      List.map_nil, ne_eq, Option.some.injEq, List.cons.injEq, and_true]
    rw [show (List.getD [(0:ℝ), 5] 1 0) = 5 from rfl]
    have : Real.sigmoid (1 / 2) < Real.sigmoid 5 := Real.sigmoid_strictMono (by norm_num)
    rw [show (1 : ℝ) / (1 + Real.exp (-5)) = Real.sigmoid 5 by rw [Real.sigmoid_def, one_div]]
    exact ne_of_lt this

/-! ### Concrete cases -/

example : ([2, 1, 3] : List ℕ).length ≥ 2 ∧ ∀ c ∈ ([2, 1, 3] : List ℕ), 0 < c := by decide

/-- Two classes with one and three observations: a latent zero gives one quarter and three quarters. -/
example : inverseLink (.ord 0 (logCumOdds [1, 3])) [0] = some [1 / 4, 3 / 4] := by
  have := (ordinal_fitted [1, 3] (by simp) (by simp)).2 0 [0] rfl
  rw [this]; norm_num

/-- A categorical variable in the columns 0 and 3, a count in column 1 and a binary variable in column 2. -/
example : (∀ t ∈ [Fitted.cat [0, 3], .poiss 1, .bin 2], t.Plain ∧ t.Valid 4) ∧
    [Fitted.cat [0, 3], .poiss 1, .bin 2].Pairwise (fun s t => ∀ i ∈ s.cols, i ∉ t.cols) := by
  simp [Fitted.Plain, Fitted.Valid, Fitted.cols]

end Verif.Pytorch
