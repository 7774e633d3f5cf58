import Verif.Generators.Wrappers

/-!
# The generators for data of one type (C83, C84)
-/

namespace Verif.Generators

open Verif.Mapper Verif.Str

/-! ### Specification -/

section
variable {N : Type} [DecidableEq N] {n : ℕ} {C : Type}

/-- What is assumed about what comes from outside. -/
structure Outside.OK (E : Outside N n C) (g : SemGraph N) : Prop where
  types : E.types.Perm permissible
  order : Verif.Graph.Acyclic g.pairs → IsTopo g.nodes g.pairs E.order
  uniform : E.draws.Uniform

/-- The means of the features, of variables all of the type `t`: without kernel, linear in the features of the parents; with
one, a sample of the Gaussian process at the features of the parents. -/
def MeanOf (E : Outside N n C) (g : SemGraph N) (t : VarType) (intercept : Bool) (F : SemFrame N n) (val : N → Col n)
    (mean : N → N → Col n) : Prop :=
  match E.kernel with
  | none => ∃ (W : N → N → ℝ) (b : N → ℝ), Coefficients E.fmt g E.draws (fun _ => t) W ∧
      (∀ h, b h = if intercept then E.draws.intercept ((F.map (·.1)).idxOf h) else 0) ∧
      mean = structuralMean E.fmt g (fun _ => t) W b val
  | some (S, argsort) => mean = fun v f (r : Fin n) => (gpIndex (S v ((t.features E.fmt v).idxOf f)) argsort 100
      ((g.preds v).flatMap fun u => t.features E.fmt u).length (parentRows E.fmt g (fun _ => t) val v)).getD r 0

/-- The data have the columns of the variables of type `t`, realised from the means. -/
def Generated (E : Outside N n C) (g : SemGraph N) (t : VarType) (noiseStd : ℝ) (dist : Distributions) (intercept : Bool)
    (F : SemFrame N n) (val : N → Col n) : Prop :=
  FrameOf E.fmt g.nodes (fun _ => t) F val ∧ ∃ mean, MeanOf E g t intercept F val mean ∧
    ∀ v ∈ g.nodes, Realises E.fmt g E.draws noiseStd dist v (mean v) val t

/-- The value of the setting for the type is valid. -/
def ValidOne (dist : Distributions) : VarType → Prop
  | .continuous => dist.continuous ∈ knownDistributions
  | .binary => dist.binary ∈ knownDistributions
  | .count => 0 ≤ dist.count ∧ dist.count ≤ 1
  | .categorical _ => dist.categorical ∈ knownDistributions

/-! ### Lemmas -/

/-- The call all generators make. -/
noncomputable def oneType (E : Outside N n C) (g : SemGraph N) (defaultType : Str) (noiseStd : ℝ) (dist : Distributions)
    (intercept : Bool) : Except Err (SemFrame N n) :=
  match E.kernel with
  | none => semGenerator E.fmt E.types E.order E.empty E.draws g none defaultType noiseStd dist intercept
  | some (S, argsort) => nonlinearSemGenerator E.fmt E.types E.order E.empty E.draws S argsort g none defaultType noiseStd dist

theorem documented_one (nodes : List N) (t : VarType) (ht : ∀ k, t = .categorical k → k ≠ 0) :
    Documented nodes none t.str fun _ => t := ⟨⟨t, rfl, ht⟩, fun _ _ => ⟨rfl, ht⟩⟩

theorem valid_one {g : SemGraph N} {t : VarType} {dist : Distributions} (h : ValidOne dist t) : Valid g (fun _ => t) dist := by
  refine ⟨?_, ?_, ?_, ?_⟩
  · rintro v - rfl
    exact h
  · rintro v - rfl
    exact h
  · rintro v - rfl
    exact h
  · rintro v - k rfl
    exact h

theorem validOne_of {g : SemGraph N} {t : VarType} {dist : Distributions} (hn : g.nodes ≠ []) (h : Valid g (fun _ => t) dist) :
    ValidOne dist t := by
  obtain ⟨v, hv⟩ := List.exists_mem_of_ne_nil _ hn
  cases t with
  | continuous => exact h.continuous v hv rfl
  | binary => exact h.binary v hv rfl
  | count => exact h.count v hv rfl
  | categorical k => exact h.categorical v hv k rfl

theorem oneType_ok {E : Outside N n C} {g : SemGraph N} (hE : E.OK g) (hg : g.WF) (ha : Verif.Graph.Acyclic g.pairs) {t : VarType}
    (ht : ∀ k, t = .categorical k → k ≠ 0) (hd : Distinct E.fmt (schOf g.nodes fun _ => t)) {dist : Distributions}
    (hv : ValidOne dist t) (hw : dist.weight = "uniform") (hi : dist.intercept = "uniform") (noiseStd : ℝ) (intercept : Bool) :
    ∃ F val, oneType E g t.str noiseStd dist intercept = .ok F ∧ Generated E g t noiseStd dist intercept F val := by
  unfold oneType Generated MeanOf
  cases E.kernel with
  | none =>
    obtain ⟨F, hF, val, W, b, h1, h2, h3, h4⟩ := semGenerator_correct hg ha hd (documented_one g.nodes t ht) hE.types (hE.order ha)
      hE.uniform (intercept := intercept) (dist := dist)
      ⟨valid_one hv, fun _ _ _ => by rw [hw]; simp, fun _ => by rw [hi]; simp⟩ noiseStd E.empty
    exact ⟨F, val, hF, h1, _, ⟨W, b, h2, h3, rfl⟩, h4⟩
  | some k =>
    obtain ⟨S, argsort⟩ := k
    obtain ⟨F, hF, val, h1, h2⟩ := nonlinearSemGenerator_correct hg ha hd (documented_one g.nodes t ht) hE.types (hE.order ha)
      hE.uniform S argsort (valid_one hv) noiseStd E.empty
    exact ⟨F, val, hF, h1, _, rfl, h2⟩

theorem oneType_error {E : Outside N n C} {g : SemGraph N} (hE : E.OK g) (hg : g.WF) {t : VarType}
    (ht : ∀ k, t = .categorical k → k ≠ 0) (hd : Distinct E.fmt (schOf g.nodes fun _ => t)) {dist : Distributions}
    (h : ¬ Verif.Graph.Acyclic g.pairs ∨ (g.nodes ≠ [] ∧ ¬ ValidOne dist t)) (noiseStd : ℝ) (intercept : Bool) :
    oneType E g t.str noiseStd dist intercept = .error .valueError := by
  unfold oneType
  cases E.kernel with
  | none =>
    refine semGenerator_error hg hd (documented_one g.nodes t ht) hE.types hE.order _ ?_ _ _
    rintro ⟨h1, h2⟩
    rcases h with h | ⟨h, h'⟩
    · exact h h1
    · exact h' (validOne_of h h2.toValid)
  | some k =>
    refine nonlinearSemGenerator_error hg hd (documented_one g.nodes t ht) hE.types hE.order _ _ _ ?_ _ _
    rintro ⟨h1, h2⟩
    rcases h with h | ⟨h, h'⟩
    · exact h h1
    · exact h' (validOne_of h h2)

/-- With one feature for every variable, the names of features are those of variables, which differ. -/
theorem distinct_single {fmt : N → ℕ → N} {nodes : List N} (hn : nodes.Nodup) {t : VarType} (ht : ∀ k, t ≠ .categorical k) :
    Distinct fmt (schOf nodes fun _ => t) := by
  have h : ∀ v, t.features fmt v = [v] := by
    intro v
    cases t with
    | categorical k => exact absurd rfl (ht k)
    | _ => rfl
  constructor
  · simpa [schOf, Function.comp_def] using hn
  · simpa [schOf, List.flatMap_map, h] using hn

theorem distinct_categorical {fmt : N → ℕ → N} {nodes : List N} (hn : nodes.Nodup) {k : ℕ}
    (hfmt : ∀ u ∈ nodes, ∀ v ∈ nodes, ∀ i < k, ∀ j < k, fmt u i = fmt v j → u = v ∧ i = j) :
    Distinct fmt (schOf nodes fun _ => .categorical k) := by
  constructor
  · simpa [schOf, Function.comp_def] using hn
  · rw [schOf, List.flatMap_map, List.nodup_flatMap]
    constructor
    · intro v hv
      refine List.nodup_range.map_on ?_
      intro i hi j hj h
      exact (hfmt v hv v hv i (List.mem_range.1 hi) j (List.mem_range.1 hj) h).2
    · refine List.Pairwise.imp_of_mem ?_ hn
      intro u v hu hv huv
      rw [Function.onFun, List.disjoint_left]
      intro x hx hy
      obtain ⟨i, hi, rfl⟩ := List.mem_map.1 hx
      obtain ⟨j, hj, h⟩ := List.mem_map.1 hy
      exact huv (hfmt v hv u hu j (List.mem_range.1 hj) i (List.mem_range.1 hi) h).1.symm

/-- With one feature for every variable, the names of the columns are the nodes. -/
theorem frameOf_single {fmt : N → ℕ → N} {nodes : List N} (hn : nodes.Nodup) {t : VarType} (ht : ∀ k, t ≠ .categorical k)
    {F : SemFrame N n} {val : N → Col n} (h : FrameOf fmt nodes (fun _ => t) F val) :
    (F.map (·.1)).Perm nodes ∧ ∀ v ∈ nodes, Dict.get? F v = some (val v) := by
  have hf : ∀ v, t.features fmt v = [v] := by
    intro v
    cases t with
    | categorical k => exact absurd rfl (ht k)
    | _ => rfl
  have hm : ∀ v c, (v, c) ∈ F ↔ v ∈ nodes ∧ c = val v := by
    intro v c
    rw [h.2]
    simp [hf]
  constructor
  · rw [List.perm_ext_iff_of_nodup h.1 hn]
    intro v
    rw [List.mem_map]
    constructor
    · rintro ⟨⟨w, c⟩, he, rfl⟩
      exact ((hm _ _).1 he).1
    · exact fun hv => ⟨(v, val v), (hm _ _).2 ⟨hv, rfl⟩, rfl⟩
  · exact fun v hv => Dict.get?_of_mem h.1 ((hm _ _).2 ⟨hv, rfl⟩)

theorem selectCols_ok {F : SemFrame N n} {val : N → Col n} {nodes : List N} (h : ∀ v ∈ nodes, Dict.get? F v = some (val v)) :
    selectCols F nodes = .ok (nodes.map val) := by
  induction nodes with
  | nil => rfl
  | cons v vs ih =>
    unfold selectCols
    rw [h v List.mem_cons_self, ih fun v hv => h v (List.mem_cons_of_mem _ hv)]
    rfl

theorem continuousFrame_eq (E : Outside N n C) (g : SemGraph N) (d : String) (s : ℝ) (i : Bool) :
    continuousFrame E g d s i = oneType E g (VarType.continuous).str s { continuous := d } i := rfl

theorem binaryFrame_eq (E : Outside N n C) (g : SemGraph N) (d : String) (s : ℝ) (i : Bool) :
    binaryFrame E g d s i = oneType E g (VarType.binary).str s { binary := d } i := rfl

theorem countFrame_eq (E : Outside N n C) (g : SemGraph N) (z : ℝ) (i : Bool) :
    countFrame E g z i = oneType E g (VarType.count).str 1 { count := z } i := rfl

theorem categoricalFrame_eq (E : Outside N n C) (g : SemGraph N) (d : String) (k : ℕ) (s : ℝ) (i : Bool) :
    categoricalFrame E g d k s i = oneType E g (VarType.categorical k).str s { categorical := d } i := rfl

/-! ### The data -/

variable {E : Outside N n C} {g : SemGraph N}

/-- **C83**: `generate_continuous_dataframe` returns a frame with the nodes as names of columns; the columns are realised as
continuous variables, from the final values of their parents. -/
theorem continuousFrame_correct (hE : E.OK g) (hg : g.WF) (ha : Verif.Graph.Acyclic g.pairs) {distribution : String}
    (hd : distribution ∈ knownDistributions) (noiseScale : ℝ) (intercept : Bool) :
    ∃ F val, continuousFrame E g distribution noiseScale intercept = .ok F ∧ (F.map (·.1)).Perm g.nodes ∧
      (∀ v ∈ g.nodes, Dict.get? F v = some (val v)) ∧
      Generated E g .continuous noiseScale { continuous := distribution } intercept F val := by
  obtain ⟨F, val, hF, h⟩ := oneType_ok hE hg ha (t := .continuous) (by simp) (distinct_single hg.nodes (by simp))
    (dist := { continuous := distribution }) hd rfl rfl noiseScale intercept
  obtain ⟨h1, h2⟩ := frameOf_single hg.nodes (by simp) h.1
  exact ⟨F, val, hF, h1, h2, h⟩

/-- **C83**: `generate_binary_dataframe`. -/
theorem binaryFrame_correct (hE : E.OK g) (hg : g.WF) (ha : Verif.Graph.Acyclic g.pairs) {distribution : String}
    (hd : distribution ∈ knownDistributions) (noiseScale : ℝ) (intercept : Bool) :
    ∃ F val, binaryFrame E g distribution noiseScale intercept = .ok F ∧ (F.map (·.1)).Perm g.nodes ∧
      (∀ v ∈ g.nodes, Dict.get? F v = some (val v) ∧ ∀ r, val v r = 0 ∨ val v r = 1) ∧
      Generated E g .binary noiseScale { binary := distribution } intercept F val := by
  obtain ⟨F, val, hF, h⟩ := oneType_ok hE hg ha (t := .binary) (by simp) (distinct_single hg.nodes (by simp))
    (dist := { binary := distribution }) hd rfl rfl noiseScale intercept
  obtain ⟨h1, h2⟩ := frameOf_single hg.nodes (by simp) h.1
  obtain ⟨-, mean, -, h4⟩ := id h
  exact ⟨F, val, hF, h1, fun v hv => ⟨h2 v hv, (h4 v hv).inType⟩, h⟩

/-- **C83**: `generate_count_dataframe`. -/
theorem countFrame_correct (hE : E.OK g) (hg : g.WF) (ha : Verif.Graph.Acyclic g.pairs) {factor : ℝ} (h0 : 0 ≤ factor) (h1 : factor ≤ 1)
    (intercept : Bool) :
    ∃ F val, countFrame E g factor intercept = .ok F ∧ (F.map (·.1)).Perm g.nodes ∧
      (∀ v ∈ g.nodes, Dict.get? F v = some (val v) ∧ ∀ r, ∃ k : ℕ, val v r = (k : ℝ)) ∧
      Generated E g .count 1 { count := factor } intercept F val := by
  obtain ⟨F, val, hF, h⟩ := oneType_ok hE hg ha (t := .count) (by simp) (distinct_single hg.nodes (by simp))
    (dist := { count := factor }) ⟨h0, h1⟩ rfl rfl 1 intercept
  obtain ⟨h1, h2⟩ := frameOf_single hg.nodes (by simp) h.1
  obtain ⟨-, mean, -, h4⟩ := id h
  exact ⟨F, val, hF, h1, fun v hv => ⟨h2 v hv, (h4 v hv).inType⟩, h⟩

/-- **C83**: `generate_categorical_dataframe`: `n_categories` columns for every node, one of them 1 and the others 0 in every
row. -/
theorem categoricalFrame_correct (hE : E.OK g) (hg : g.WF) (ha : Verif.Graph.Acyclic g.pairs) {distribution : String}
    (hd : distribution ∈ knownDistributions) {k : ℕ} (hk : 1 ≤ k)
    (hfmt : ∀ u ∈ g.nodes, ∀ v ∈ g.nodes, ∀ i < k, ∀ j < k, E.fmt u i = E.fmt v j → u = v ∧ i = j) (noiseScale : ℝ) (intercept : Bool) :
    ∃ F val, categoricalFrame E g distribution k noiseScale intercept = .ok F ∧
      (F.map (·.1)).Perm (g.nodes.flatMap fun v => (List.range k).map (E.fmt v)) ∧
      (∀ v ∈ g.nodes, ∀ i < k, Dict.get? F (E.fmt v i) = some (val (E.fmt v i))) ∧
      (∀ v ∈ g.nodes, ∀ r, ∃ i < k, val (E.fmt v i) r = 1 ∧ ∀ j < k, j ≠ i → val (E.fmt v j) r = 0) ∧
      Generated E g (.categorical k) noiseScale { categorical := distribution } intercept F val := by
  have hdis := distinct_categorical hg.nodes hfmt
  obtain ⟨F, val, hF, h⟩ := oneType_ok hE hg ha (t := .categorical k)
    (by
      intro k' h
      have := VarType.categorical.inj h
      omega) hdis (dist := { categorical := distribution }) hd rfl rfl noiseScale intercept
  obtain ⟨-, mean, -, h4⟩ := id h
  have hmem : ∀ v ∈ g.nodes, ∀ i < k, (E.fmt v i, val (E.fmt v i)) ∈ F := fun v hv i hi =>
    (h.1.2 _ _).2 ⟨⟨v, hv, List.mem_map.2 ⟨i, List.mem_range.2 hi, rfl⟩⟩, rfl⟩
  refine ⟨F, val, hF, ?_, fun v hv i hi => Dict.get?_of_mem h.1.1 (hmem v hv i hi), fun v hv => (h4 v hv).inType, h⟩
  have hnd := hdis.2
  rw [schOf, List.flatMap_map] at hnd
  refine (List.perm_ext_iff_of_nodup h.1.1 hnd).2 ?_
  intro f
  rw [List.mem_map, List.mem_flatMap]
  constructor
  · rintro ⟨⟨w, c⟩, he, rfl⟩
    exact ((h.1.2 _ _).1 he).1
  · rintro ⟨v, hv, hf⟩
    obtain ⟨i, hi, rfl⟩ := List.mem_map.1 hf
    exact ⟨_, hmem v hv i (List.mem_range.1 hi), rfl⟩

/-- For names that are strings, the hypothesis about the names always holds. -/
theorem strFmt_distinct (nodes : List Str) (k : ℕ) :
    ∀ u ∈ nodes, ∀ v ∈ nodes, ∀ i < k, ∀ j < k, strFmt u i = strFmt v j → u = v ∧ i = j :=
  fun _ _ _ _ _ _ _ _ h => strFmt_inj h

/-- **C83**: column `j` of the array of `generate_continuous_data` is the column of the `j`-th node in `sm.nodes`, the same as in
the frame of `generate_continuous_dataframe`. -/
theorem continuousData_correct (hE : E.OK g) (hg : g.WF) (ha : Verif.Graph.Acyclic g.pairs) {distribution : String}
    (hd : distribution ∈ knownDistributions) (noiseScale : ℝ) (intercept : Bool) :
    ∃ F val, continuousFrame E g distribution noiseScale intercept = .ok F ∧
      continuousData E g distribution noiseScale intercept = .ok (g.nodes.map val) ∧
      (∀ v ∈ g.nodes, Dict.get? F v = some (val v)) ∧
      Generated E g .continuous noiseScale { continuous := distribution } intercept F val := by
  obtain ⟨F, val, hF, -, h2, h3⟩ := continuousFrame_correct hE hg ha hd noiseScale intercept
  refine ⟨F, val, hF, ?_, h2, h3⟩
  change (match continuousFrame E g distribution noiseScale intercept with
    | .error e => (.error e : Except Err (List (Col n)))
    | .ok F => selectCols F g.nodes) = _
  rw [hF]
  exact selectCols_ok h2

/-- **C83**: the same for `generate_binary_data`. -/
theorem binaryData_correct (hE : E.OK g) (hg : g.WF) (ha : Verif.Graph.Acyclic g.pairs) {distribution : String}
    (hd : distribution ∈ knownDistributions) (noiseScale : ℝ) (intercept : Bool) :
    ∃ F val, binaryFrame E g distribution noiseScale intercept = .ok F ∧
      binaryData E g distribution noiseScale intercept = .ok (g.nodes.map val) ∧
      (∀ v ∈ g.nodes, Dict.get? F v = some (val v) ∧ ∀ r, val v r = 0 ∨ val v r = 1) ∧
      Generated E g .binary noiseScale { binary := distribution } intercept F val := by
  obtain ⟨F, val, hF, -, h2, h3⟩ := binaryFrame_correct hE hg ha hd noiseScale intercept
  refine ⟨F, val, hF, ?_, h2, h3⟩
  change (match binaryFrame E g distribution noiseScale intercept with
    | .error e => (.error e : Except Err (List (Col n)))
    | .ok F => selectCols F g.nodes) = _
  rw [hF]
  exact selectCols_ok fun v hv => (h2 v hv).1

theorem generated_continuous_linear {noiseScale : ℝ} {dist : Distributions} {intercept : Bool} {F : SemFrame N n} {val : N → Col n}
    (hk : E.kernel = none) (h : Generated E g .continuous noiseScale dist intercept F val) :
    ∃ (W : N → N → ℝ) (b : N → ℝ), (∀ u v w, (u, v, w) ∈ g.edges → W u v = w.getD (E.draws.weight u v 0 0)) ∧
      (∀ v, b v = if intercept then E.draws.intercept ((F.map (·.1)).idxOf v) else 0) ∧
      ∀ v ∈ g.nodes, ∀ r, val v r = ((g.preds v).map fun u => W u v * val u r).sum + b v +
        noiseOf g E.draws noiseScale dist.continuous v 0 r := by
  obtain ⟨-, mean, hm, h⟩ := h
  unfold MeanOf at hm
  rw [hk] at hm
  obtain ⟨W, b, h1, h2, rfl⟩ := hm
  refine ⟨W, b, ?_, h2, ?_⟩
  · intro u v w hw
    rw [h1 u v w hw 0 0 u v rfl rfl]
    cases w with
    | none => rfl
    | some c => exact if_pos ⟨rfl, rfl⟩
  · intro v hv r
    rw [h v hv r]
    unfold structuralMean
    congr 2
    have : ((g.preds v).flatMap fun u => VarType.features E.fmt u .continuous) = g.preds v := by
      simp [VarType.features]
    rw [this]
    congr 1
    exact List.map_congr_left fun u _ => mul_comm _ _

/-- **C83**: `generate_continuous_data` without kernel: every column is the sum of the columns of its parents times the weights
of the edges (those given, or those drawn), plus the intercept and noise. -/
theorem continuousData_linear (hE : E.OK g) (hg : g.WF) (ha : Verif.Graph.Acyclic g.pairs) {distribution : String}
    (hd : distribution ∈ knownDistributions) (hk : E.kernel = none) (noiseScale : ℝ) (intercept : Bool) :
    ∃ (val : N → Col n) (W : N → N → ℝ) (b : N → ℝ), continuousData E g distribution noiseScale intercept = .ok (g.nodes.map val) ∧
      (∀ u v w, (u, v, w) ∈ g.edges → W u v = w.getD (E.draws.weight u v 0 0)) ∧ (intercept = false → ∀ v, b v = 0) ∧
      ∀ v ∈ g.nodes, ∀ r, val v r = ((g.preds v).map fun u => W u v * val u r).sum + b v +
        noiseOf g E.draws noiseScale distribution v 0 r := by
  obtain ⟨F, val, -, h1, -, h3⟩ := continuousData_correct hE hg ha hd noiseScale intercept
  obtain ⟨W, b, h4, h5, h6⟩ := generated_continuous_linear hk h3
  refine ⟨val, W, b, h1, h4, ?_, h6⟩
  rintro rfl v
  exact h5 v

/-- **C83**: `generate_continuous_data` with a kernel: if the process drawn for `v` is the function `f v`, then the column is this
function of the columns of the parents, divided by its standard deviation, plus noise; roots are noise only. -/
theorem continuousData_kernel (hE : E.OK g) (hg : g.WF) (ha : Verif.Graph.Acyclic g.pairs) {distribution : String}
    (hd : distribution ∈ knownDistributions) {S : N → ℕ → GpSampler C} {argsort : Argsort} (hk : E.kernel = some (S, argsort))
    (hA : argsort.Sorts) {f : N → List ℝ → ℝ} (hS : ∀ v, (S v 0).Draws (f v)) (noiseScale : ℝ) (intercept : Bool) :
    ∃ val : N → Col n, continuousData E g distribution noiseScale intercept = .ok (g.nodes.map val) ∧
      ∀ v ∈ g.nodes, ∀ r, val v r = (if g.preds v = [] then 0 else f v ((g.preds v).map fun u => val u r) /
          stdDev (List.ofFn fun r => f v ((g.preds v).map fun u => val u r))) + noiseOf g E.draws noiseScale distribution v 0 r := by
  obtain ⟨F, val, -, h1, -, -, mean, hm, h4⟩ := continuousData_correct hE hg ha hd noiseScale intercept
  refine ⟨val, h1, fun v hv r => ?_⟩
  rw [h4 v hv r]
  unfold MeanOf at hm
  rw [hk] at hm
  obtain rfl := hm
  congr 1
  have hf : ((g.preds v).flatMap fun u => VarType.features E.fmt u .continuous) = g.preds v := by
    simp [VarType.features]
  have hrows : parentRows E.fmt g (fun _ => .continuous) val v = List.ofFn fun r => (g.preds v).map fun u => val u r := by
    unfold parentRows
    rw [hf]
  have hidx : ((VarType.continuous).features E.fmt v).idxOf v = 0 := List.idxOf_cons_self
  dsimp only
  rw [hidx, hf, hrows]
  by_cases hp : g.preds v = []
  · rw [if_pos hp, hp, List.length_nil]
    unfold gpIndex
    rw [if_pos rfl, List.getD_eq_getElem?_getD, List.getElem?_map]
    cases (List.ofFn fun r : Fin n => (([] : List N).map fun u => val u r))[(r : ℕ)]? <;> rfl
  · rw [if_neg hp, gpIndex_function (hS v) hA (by norm_num) (fun h => hp (List.length_eq_zero_iff.1 h)),
      List.getD_eq_getElem?_getD, List.getElem?_map, List.getElem?_ofFn]
    simp [List.map_ofFn, Function.comp_def]

/-! ### Errors -/

/-- The string of an integer is one that `int` reads as this integer. -/
theorem intStr_value (k : ℤ) : Mapper.pyIntZ (intStr k) = some k := by
  cases k with
  | ofNat k => exact Mapper.pyIntZ_natStr k
  | negSucc k =>
    have hs : Mapper.strip (intStr (.negSucc k)) = '-' :: natStr (k + 1) := by
      unfold Mapper.strip intStr
      simp only
      rw [List.dropWhile_cons, if_neg (by decide), Mapper.dropWhile_none, List.reverse_reverse]
      intro c hc
      rcases List.mem_cons.1 (List.mem_reverse.1 hc) with rfl | hc
      · decide
      · exact Mapper.natStr_not_space hc
    unfold Mapper.pyIntZ
    rw [hs]
    simp only
    rw [Mapper.unsigned_natStr]
    rfl

theorem validateSchema_nonpos {nodes : List N} (hn : nodes ≠ []) {k : ℤ} (hk : k ≤ 0) :
    validateSchema nodes ((sCategorical ++ [':']) ++ intStr k) none = .error .valueError := by
  refine (validateSchema_correct_partial nodes _ none).2 ?_
  rintro ⟨-, h⟩
  obtain ⟨v, hv⟩ := List.exists_mem_of_ne_nil _ hn
  obtain ⟨c, s, h1, h2, h3⟩ := (h v hv).2 ⟨[], [':'] ++ intStr k, by simp [usedType]⟩
  have h4 : intStr k = c :: s := List.append_cancel_left h1
  cases k with
  | ofNat k =>
    have : k = 0 := by
      simp only [Int.ofNat_eq_natCast] at hk
      omega
    subst this
    have : intStr (Int.ofNat 0) = ['0'] := by decide
    rw [this] at h4
    exact h3 (List.cons.inj h4).1.symm
  | negSucc k =>
    have h5 : '-' = c := (List.cons.inj h4).1
    rw [← h5] at h2
    exact absurd h2 (by decide)

/-- **C84** (the part that holds): a cyclic graph, an unknown name of a distribution, a factor outside `[0, 1]` and a number of
categories below 1 raise `ValueError`, if there are nodes.  Missing: a distribution that is documented for another type only is
accepted (`continuous_accepts_logit`), and for a graph without nodes nothing is checked (`empty_accepts`). -/
theorem wrappers_errors_partial (hE : E.OK g) (hg : g.WF) (noiseScale : ℝ) (intercept : Bool) :
    (∀ distribution, ¬ Verif.Graph.Acyclic g.pairs ∨ (g.nodes ≠ [] ∧ distribution ∉ knownDistributions) →
      continuousData E g distribution noiseScale intercept = .error .valueError ∧
      continuousFrame E g distribution noiseScale intercept = .error .valueError ∧
      binaryData E g distribution noiseScale intercept = .error .valueError ∧
      binaryFrame E g distribution noiseScale intercept = .error .valueError) ∧
    (∀ factor : ℝ, ¬ Verif.Graph.Acyclic g.pairs ∨ (g.nodes ≠ [] ∧ (factor < 0 ∨ 1 < factor)) →
      countFrame E g factor intercept = .error .valueError) ∧
    ∀ distribution, ∀ k : ℤ,
      (∀ u ∈ g.nodes, ∀ v ∈ g.nodes, ∀ i < k.toNat, ∀ j < k.toNat, E.fmt u i = E.fmt v j → u = v ∧ i = j) →
      ¬ Verif.Graph.Acyclic g.pairs ∨ (g.nodes ≠ [] ∧ (distribution ∉ knownDistributions ∨ k ≤ 0)) →
      categoricalFrame E g distribution k noiseScale intercept = .error .valueError := by
  refine ⟨?_, ?_, ?_⟩
  · intro d h
    have h1 : continuousFrame E g d noiseScale intercept = .error .valueError :=
      oneType_error hE hg (t := .continuous) (by simp) (distinct_single hg.nodes (by simp)) (dist := { continuous := d }) h noiseScale intercept
    have h2 : binaryFrame E g d noiseScale intercept = .error .valueError :=
      oneType_error hE hg (t := .binary) (by simp) (distinct_single hg.nodes (by simp)) (dist := { binary := d }) h noiseScale intercept
    refine ⟨?_, h1, ?_, h2⟩
    · change (match continuousFrame E g d noiseScale intercept with
        | .error e => (.error e : Except Err (List (Col n)))
        | .ok F => selectCols F g.nodes) = _
      rw [h1]
    · change (match binaryFrame E g d noiseScale intercept with
        | .error e => (.error e : Except Err (List (Col n)))
        | .ok F => selectCols F g.nodes) = _
      rw [h2]
  · intro z h
    refine oneType_error hE hg (t := .count) (by simp) (distinct_single hg.nodes (by simp)) ?_ 1 intercept
    rcases h with h | ⟨h1, h2⟩
    · exact .inl h
    · refine .inr ⟨h1, ?_⟩
      rintro ⟨h3, h4⟩
      rcases h2 with h2 | h2
      · exact absurd h3 (not_le.2 h2)
      · exact absurd h4 (not_le.2 h2)
  · intro d k hfmt h
    by_cases hac : Verif.Graph.Acyclic g.pairs
    · have hnodes : g.nodes ≠ [] := by
        rcases h with h | h
        · exact absurd hac h
        · exact h.1
      by_cases hk : k ≤ 0
      · have hinit : initSem E.fmt E.types g none ((sCategorical ++ [':']) ++ intStr k) = .error .valueError := by
          unfold initSem
          rw [if_neg (not_not_intro hac), validateSchema_nonpos hnodes hk]
        unfold categoricalFrame semGenerator nonlinearSemGenerator
        rw [hinit]
        cases E.kernel <;> rfl
      · obtain ⟨k', rfl⟩ := Int.eq_ofNat_of_zero_le (not_le.1 hk).le
        have hk1 : k' ≠ 0 := by
          rintro rfl
          exact hk le_rfl
        have hdis : Distinct E.fmt (schOf g.nodes fun _ => .categorical k') := distinct_categorical hg.nodes hfmt
        refine oneType_error hE hg (t := .categorical k') ?_ hdis ?_ noiseScale intercept
        · intro k'' h'
          have := VarType.categorical.inj h'
          omega
        · rcases h with h | ⟨h1, h2⟩
          · exact .inl h
          · exact .inr ⟨h1, h2.resolve_right hk⟩
    · have hinit : initSem E.fmt E.types g none ((sCategorical ++ [':']) ++ intStr k) = .error .valueError := by
        unfold initSem
        rw [if_pos hac]
      unfold categoricalFrame semGenerator nonlinearSemGenerator
      rw [hinit]
      cases E.kernel <;> rfl

/-- The full **C84** fails: a continuous distribution must be `gaussian`, `normal`, `student-t`, `exponential` or `gumbel` by the
documentation, but `logit` is accepted; so is `exponential` for binary data, for which `probit`, `normal` and `logit` are
documented. -/
theorem continuous_accepts_logit (hE : E.OK g) (hg : g.WF) (ha : Verif.Graph.Acyclic g.pairs) (noiseScale : ℝ) (intercept : Bool) :
    (∃ X, continuousData E g "logit" noiseScale intercept = .ok X) ∧ ∃ X, binaryData E g "exponential" noiseScale intercept = .ok X := by
  obtain ⟨_, val, -, h, -⟩ := continuousData_correct hE hg ha (distribution := "logit") (by decide) noiseScale intercept
  obtain ⟨_, val', -, h', -⟩ := binaryData_correct hE hg ha (distribution := "exponential") (by decide) noiseScale intercept
  exact ⟨⟨_, h⟩, _, h'⟩

/-- For a graph without nodes, any settings are accepted. -/
theorem empty_accepts (hE : E.OK ⟨[], []⟩) (distribution : String) (noiseScale : ℝ) (intercept : Bool) :
    continuousData E ⟨[], []⟩ distribution noiseScale intercept = .ok [] := by
  have hg : (⟨[], []⟩ : SemGraph N).WF := ⟨List.nodup_nil, List.nodup_nil, by simp [SemGraph.pairs]⟩
  have ha : Verif.Graph.Acyclic (⟨[], []⟩ : SemGraph N).pairs := by
    intro v hv
    obtain ⟨u, -, h⟩ := Relation.TransGen.tail'_iff.1 hv
    exact absurd h (List.not_mem_nil)
  have hd : Distinct E.fmt (schOf ([] : List N) fun _ => VarType.continuous) := ⟨List.nodup_nil, List.nodup_nil⟩
  have key : ∃ F, continuousFrame E ⟨[], []⟩ distribution noiseScale intercept = .ok F := by
    unfold continuousFrame
    cases E.kernel with
    | none =>
      obtain ⟨F, hF, -⟩ := semGenerator_correct (g := ⟨[], []⟩) hg ha hd (documented_one [] .continuous (by simp)) hE.types (hE.order ha)
        hE.uniform (intercept := intercept) (dist := { continuous := distribution })
        ⟨⟨by simp, by simp, by simp, by simp⟩, by simp, fun _ => by simp⟩ noiseScale E.empty
      exact ⟨F, hF⟩
    | some k =>
      obtain ⟨F, hF, -⟩ := nonlinearSemGenerator_correct (g := ⟨[], []⟩) hg ha hd (documented_one [] .continuous (by simp)) hE.types
        (hE.order ha) hE.uniform k.1 k.2 (dist := { continuous := distribution }) ⟨by simp, by simp, by simp, by simp⟩ noiseScale E.empty
      exact ⟨F, hF⟩
  obtain ⟨F, hF⟩ := key
  change (match continuousFrame E ⟨[], []⟩ distribution noiseScale intercept with
    | .error e => (.error e : Except Err (List (Col n)))
    | .ok F => selectCols F []) = _
  rw [hF]
  rfl

end

end Verif.Generators
