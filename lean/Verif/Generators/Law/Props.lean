import Verif.Generators.Law.Core

/-!
# The law of generated data (C122)
-/

namespace Verif.Generators

open MeasureTheory ProbabilityTheory Verif.Mapper Verif.Str

section
variable {N : Type} [DecidableEq N] {n : ℕ} {Ω : Type} [MeasurableSpace Ω] {fmt : N → ℕ → N} {g : SemGraph N} {ty : N → VarType}
  {noiseStd : ℝ} {dist : Distributions} {P : Measure Ω} [IsProbabilityMeasure P] {D₀ : SemDraws N n} {D : Ω → SemDraws N n}

theorem structuralMean_congr {W W' : N → N → ℝ} {b b' : N → ℝ} {val val' : N → Col n} {v h : N}
    (hval : ∀ u ∈ g.preds v, ∀ f ∈ (ty u).features fmt u, val f = val' f)
    (hW : ∀ u ∈ g.preds v, ∀ f ∈ (ty u).features fmt u, W f h = W' f h) (hb : b h = b' h) :
    structuralMean fmt g ty W b val v h = structuralMean fmt g ty W' b' val' v h := by
  ext r
  unfold structuralMean
  rw [hb]
  congr 2
  refine List.map_congr_left fun f hf => ?_
  obtain ⟨u, hu, hf⟩ := List.mem_flatMap.1 hf
  rw [hval u hu f hf, hW u hu f hf]

/-- How the columns come from the means depends on the means of the features only. -/
theorem realises_congr {D : SemDraws N n} {v : N} {mean mean' val : N → Col n} {t : VarType}
    (h : ∀ f ∈ t.features fmt v, mean f = mean' f) (hR : Realises fmt g D noiseStd dist v mean val t) :
    Realises fmt g D noiseStd dist v mean' val t := by
  cases t with
  | continuous => intro r; rw [← h v (by simp [VarType.features])]; exact hR r
  | binary =>
    unfold Realises at hR ⊢
    rwa [← h v (by simp [VarType.features])]
  | count =>
    unfold Realises at hR ⊢
    rwa [← h v (by simp [VarType.features])]
  | categorical k =>
    obtain ⟨choice, hc⟩ := hR
    refine ⟨choice, fun r => ⟨(hc r).1, fun c hck => ?_, (hc r).2.2⟩⟩
    have h1 := (hc r).2.1 c hck
    have hfe : ∀ c < k, fmt v c ∈ (VarType.categorical k).features fmt v := fun c hc => List.mem_map.2 ⟨c, List.mem_range.2 hc, rfl⟩
    dsimp only at h1 ⊢
    rwa [← h _ (hfe c hck), ← h _ (hfe _ (hc r).1)]

theorem coefficients_unique {D D' : SemDraws N n} (hw : D.weight = D'.weight) (hm : D.mask = D'.mask) {W W' : N → N → ℝ}
    (h : Coefficients fmt g D ty W) (h' : Coefficients fmt g D' ty W') {u v f x : N} (hu : u ∈ g.preds v)
    (hf : f ∈ (ty u).features fmt u) (hx : x ∈ (ty v).features fmt v) : W f x = W' f x := by
  obtain ⟨e, he, rfl⟩ := List.mem_map.1 hu
  obtain ⟨he1, hev⟩ := List.mem_filter.1 he
  have hev : e.2.1 = v := by simpa using hev
  subst hev
  obtain ⟨a, ha, rfl⟩ := List.getElem_of_mem hf
  obtain ⟨b, hb, rfl⟩ := List.getElem_of_mem hx
  rw [h e.1 e.2.1 e.2.2 he1 a b _ _ (List.getElem?_eq_getElem ha) (List.getElem?_eq_getElem hb),
    h' e.1 e.2.1 e.2.2 he1 a b _ _ (List.getElem?_eq_getElem ha) (List.getElem?_eq_getElem hb), hw, hm]

/-- The columns of the table have the same names, in the same order, whatever the random numbers are. -/
theorem semGenerator_columns (hg : g.WF) (ha : Verif.Graph.Acyclic g.pairs) (hd : Distinct fmt (schOf g.nodes ty))
    {schema : Option (List (N × Str))} {defaultType : Str} (hs : Documented g.nodes schema defaultType ty) {types : List Str}
    (ht : types.Perm permissible) {order : List N} (ho : IsTopo g.nodes g.pairs order)
    {intercept : Bool} (hv : ValidLinear g ty dist intercept) (noiseStd : ℝ) :
    ∃ cols : List N, ∀ (D : SemDraws N n) (empty : ℕ → Col n) (F : SemFrame N n),
      semGenerator fmt types order empty D g schema defaultType noiseStd dist intercept = .ok F → F.map (·.1) = cols := by
  obtain ⟨m, hm, Fa⟩ := initSem_ok hg hd ha hs ht
  refine ⟨m.featureList, fun D empty F hF => ?_⟩
  have hp : ∀ v ∈ g.nodes, ∀ k, ty v = .categorical k → k ≠ 0 := fun v hv => (hs.given v hv).2
  obtain ⟨w, hw, -, -⟩ := weightMatrix_ok hg Fa hp D hv
  obtain ⟨o1, -, -⟩ := topo_blocks ho ha
  have hrun := semGenerator_run hg Fa hm (fun v hv => (o1 v).1 hv) (noiseStd := noiseStd) hv.toValid hw empty
  rw [hrun] at hF
  cases hF
  rw [List.map_fst_zip (by simp [nFeatures])]

/-- **C122**, `sem_generator`: the probability of every table of counts and categories is the product, over the variables and the
rows, of the probabilities of their values given those of the parents, and the rows are independent and equally distributed.  The
weights `W` and intercepts `b` are those given and drawn (`D₀`). -/
theorem semGenerator_law (hg : g.WF) (ha : Verif.Graph.Acyclic g.pairs) (hd : Distinct fmt (schOf g.nodes ty))
    {schema : Option (List (N × Str))} {defaultType : Str} (hs : Documented g.nodes schema defaultType ty) {types : List Str}
    (ht : types.Perm permissible) {order : List N} (ho : IsTopo g.nodes g.pairs order)
    {intercept : Bool} (hv : ValidLinear g ty dist intercept) (empty : Ω → ℕ → Col n)
    (hdis : Discrete g ty) (hcat : dist.categorical = "gumbel") (hp0 : 0 ≤ dist.count) (hp1 : dist.count ≤ 1) (hstd : 0 < noiseStd)
    (hD : RandomDraws "gumbel" gumbelLaw g noiseStd P D₀ D) :
    ∃ (cols : List N) (W : N → N → ℝ) (b : N → ℝ),
      (∀ ω F, semGenerator fmt types order (empty ω) (D ω) g schema defaultType noiseStd dist intercept = .ok F → F.map (·.1) = cols) ∧
      Coefficients fmt g D₀ ty W ∧ (∀ h, b h = if intercept then D₀.intercept (cols.idxOf h) else 0) ∧
      (∀ T : N → Col n, (∀ v ∈ g.nodes, InType fmt v T (ty v)) →
        P {ω | ∃ F, semGenerator fmt types order (empty ω) (D ω) g schema defaultType noiseStd dist intercept = .ok F ∧
          FrameOf fmt g.nodes ty F T} =
        ∏ v ∈ g.nodes.toFinset, ∏ r, ENNReal.ofReal
          (cellProb fmt g ty noiseStd dist.count (structuralMean fmt g ty W b T v) T v r)) ∧
      ∃ q : (N → ℝ) → ENNReal, ∀ T : N → Col n, (∀ v ∈ g.nodes, InType fmt v T (ty v)) →
        P {ω | ∃ F, semGenerator fmt types order (empty ω) (D ω) g schema defaultType noiseStd dist intercept = .ok F ∧
          FrameOf fmt g.nodes ty F T} = ∏ r, q fun f => T f r := by
  obtain ⟨cols, hcols⟩ := semGenerator_columns (n := n) hg ha hd hs ht ho hv noiseStd
  have hc := fun ω => semGenerator_correct hg ha hd hs ht ho (hD.uniform ω) hv noiseStd (empty ω)
  obtain ⟨ω₀⟩ : Nonempty Ω := nonempty_of_isProbabilityMeasure P
  obtain ⟨F₀, hF₀, val₀, W, b, -, hW, hb, -⟩ := hc ω₀
  rw [hcols _ _ _ hF₀, hD.intercept] at hb
  have hlaw : ∀ T : N → Col n, (∀ v ∈ g.nodes, InType fmt v T (ty v)) →
      P {ω | ∃ F, semGenerator fmt types order (empty ω) (D ω) g schema defaultType noiseStd dist intercept = .ok F ∧
        FrameOf fmt g.nodes ty F T} =
      ∏ v ∈ g.nodes.toFinset, ∏ r, ENNReal.ofReal
        (cellProb fmt g ty noiseStd dist.count (structuralMean fmt g ty W b T v) T v r) := by
    intro T hT
    refine law_core (M := fun val v => structuralMean fmt g ty W b val v) hg ha ho hdis hD hstd hp0 hp1 hcat ?_ ?_ hT
    · intro v _ val val' h x _
      exact structuralMean_congr h (fun _ _ _ _ => rfl) rfl
    · intro ω
      obtain ⟨F, hF, val, W', b', hFr, hW', hb', hR⟩ := hc ω
      refine ⟨F, hF, val, hFr, fun v hv' => realises_congr ?_ (hR v hv')⟩
      intro f hf
      refine structuralMean_congr (fun _ _ _ _ => rfl) (fun u hu f' hf' => ?_) ?_
      · exact coefficients_unique ((hD.weight ω).trans (hD.weight ω₀).symm) ((hD.mask ω).trans (hD.mask ω₀).symm) hW' hW hu hf' hf
      · rw [hb' f, hcols _ _ _ hF, hD.intercept, hb f]
  refine ⟨cols, W, b, fun ω F hF => hcols _ _ _ hF, ?_, hb, hlaw, ?_⟩
  · intro u v weight he a b' f h hf hh
    have := hW u v weight he a b' f h hf hh
    rw [hD.weight, hD.mask] at this
    exact this
  · refine ⟨fun row => ∏ v ∈ g.nodes.toFinset, ENNReal.ofReal (cellProb (n := 1) fmt g ty noiseStd dist.count
      (structuralMean fmt g ty W b (fun f _ => row f) v) (fun f _ => row f) v 0), fun T hT => ?_⟩
    rw [hlaw T hT, Finset.prod_comm]
    rfl

/-- **C122**, `nonlinear_sem_generator`: the same with the samples of the Gaussian processes as means; they depend on the values of
the parents in all rows. -/
theorem nonlinearSemGenerator_law {C : Type} (hg : g.WF) (ha : Verif.Graph.Acyclic g.pairs) (hd : Distinct fmt (schOf g.nodes ty))
    {schema : Option (List (N × Str))} {defaultType : Str} (hs : Documented g.nodes schema defaultType ty) {types : List Str}
    (ht : types.Perm permissible) {order : List N} (ho : IsTopo g.nodes g.pairs order) (S : N → ℕ → GpSampler C) (argsort : Argsort)
    (hv : Valid g ty dist) (empty : Ω → ℕ → Col n)
    (hdis : Discrete g ty) (hcat : dist.categorical = "gumbel") (hp0 : 0 ≤ dist.count) (hp1 : dist.count ≤ 1) (hstd : 0 < noiseStd)
    (hD : RandomDraws "gumbel" gumbelLaw g noiseStd P D₀ D) (T : N → Col n) (hT : ∀ v ∈ g.nodes, InType fmt v T (ty v)) :
    P {ω | ∃ F, nonlinearSemGenerator fmt types order (empty ω) (D ω) S argsort g schema defaultType noiseStd dist = .ok F ∧
        FrameOf fmt g.nodes ty F T} =
      ∏ v ∈ g.nodes.toFinset, ∏ r, ENNReal.ofReal (cellProb fmt g ty noiseStd dist.count
        (fun f r => (gpIndex (S v (((ty v).features fmt v).idxOf f)) argsort 100
          ((g.preds v).flatMap fun u => (ty u).features fmt u).length (parentRows fmt g ty T v)).getD r 0) T v r) := by
  refine law_core (M := fun val v f r => (gpIndex (S v (((ty v).features fmt v).idxOf f)) argsort 100
    ((g.preds v).flatMap fun u => (ty u).features fmt u).length (parentRows fmt g ty val v)).getD r 0) hg ha ho hdis hD hstd hp0 hp1
    hcat ?_ (fun ω => nonlinearSemGenerator_correct hg ha hd hs ht ho (hD.uniform ω) S argsort hv noiseStd (empty ω)) hT
  intro v _ val val' h x _
  have : parentRows fmt g ty val v = parentRows fmt g ty val' v := by
    unfold parentRows
    congr 1
    ext1 r
    refine List.map_congr_left fun f hf => ?_
    obtain ⟨u, hu, hf⟩ := List.mem_flatMap.1 hf
    rw [h u hu f hf]
  simp only [this]

end

end Verif.Generators
