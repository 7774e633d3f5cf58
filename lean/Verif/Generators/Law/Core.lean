import Verif.Generators.Law.Spec
import Verif.Generators.Law.Blocks
import Verif.Generators.SemProps

/-!
# The law of generated data: proof for any means (C122)
-/

namespace Verif.Generators

open MeasureTheory ProbabilityTheory Verif.Mapper

section
variable {N : Type} [DecidableEq N] {n : ℕ} {Ω : Type} [MeasurableSpace Ω] {fmt : N → ℕ → N} {g : SemGraph N} {ty : N → VarType}
  {noiseStd : ℝ} {dist : Distributions} {P : Measure Ω} [IsProbabilityMeasure P] {D₀ : SemDraws N n} {D : Ω → SemDraws N n}

open Classical in
/-- The names of the numbers for the variable `v` in the row `r`. -/
noncomputable def cellIx (ty : N → VarType) (v : N) (r : Fin n) : Finset (DrawIx N n) :=
  match ty v with
  | .categorical k => (Finset.range k).image fun c => .noise v c r
  | .count => {.eta v r, .zif v r, .poisson v r}
  | _ => ∅

/-- The numbers for which the cell can have its value (`strict`: must have). -/
def cellEvent (fmt : N → ℕ → N) (g : SemGraph N) (ty : N → VarType) (p : ℝ) (strict : Bool) (mean T : N → Col n) (v : N) (r : Fin n) :
    Set (DrawIx N n → ℝ) :=
  match ty v with
  | .categorical k => {x | ∀ i < k, T (fmt v i) r = 1 → ∀ c < k, c ≠ i →
      if strict then mean (fmt v c) r + x (.noise v c r) < mean (fmt v i) r + x (.noise v i r)
      else mean (fmt v c) r + x (.noise v c r) ≤ mean (fmt v i) r + x (.noise v i r)}
  | .count => {x | (x (.eta v r), x (.zif v r), x (.poisson v r)) ∈ countEvent p (g.preds v = []) (mean v r) ⌊T v r⌋₊}
  | _ => Set.univ

theorem cellIx_disjoint {v v' : N} {r r' : Fin n} (h : (v, r) ≠ (v', r')) : Disjoint (cellIx ty v r) (cellIx ty v' r') := by
  classical
  rw [Finset.disjoint_left]
  intro i h1 h2
  unfold cellIx at h1 h2
  apply h
  cases h3 : ty v <;> cases h4 : ty v' <;> simp only [h3, h4, Finset.mem_image, Finset.mem_insert, Finset.mem_singleton,
    Finset.notMem_empty] at h1 h2
  · rcases h1 with rfl | rfl | rfl <;> simp at h2 <;> simp [h2]
  · obtain ⟨c, -, rfl⟩ := h2; simp at h1
  · obtain ⟨c, -, rfl⟩ := h1; simp at h2
  · obtain ⟨c, -, rfl⟩ := h1
    obtain ⟨d, -, h5⟩ := h2
    simp only [DrawIx.noise.injEq] at h5
    simp [h5]

theorem cellEvent_dep {p : ℝ} {strict : Bool} {mean T : N → Col n} {v : N} {r : Fin n} {x y : DrawIx N n → ℝ}
    (h : ∀ i ∈ cellIx ty v r, x i = y i) (hx : x ∈ cellEvent fmt g ty p strict mean T v r) :
    y ∈ cellEvent fmt g ty p strict mean T v r := by
  classical
  unfold cellIx at h
  unfold cellEvent at hx ⊢
  cases h3 : ty v <;> simp only [h3, Finset.mem_image, Finset.mem_insert, Finset.mem_singleton, Finset.mem_range] at h hx ⊢
  · trivial
  · trivial
  · simp only [Set.mem_ofPred_eq] at hx ⊢
    rw [← h (.eta v r) (by simp), ← h (.zif v r) (by simp), ← h (.poisson v r) (by simp)]
    exact hx
  · intro i hi hT c hc hci
    rw [← h (.noise v c r) ⟨c, hc, rfl⟩, ← h (.noise v i r) ⟨i, hi, rfl⟩]
    exact hx i hi hT c hc hci

theorem measurableSet_cellEvent (p : ℝ) (strict : Bool) (mean T : N → Col n) (v : N) (r : Fin n) :
    MeasurableSet (cellEvent fmt g ty p strict mean T v r) := by
  unfold cellEvent
  generalize ty v = t
  cases t with
  | continuous => exact MeasurableSet.univ
  | binary => exact MeasurableSet.univ
  | count =>
    exact (show Measurable fun x : DrawIx N n → ℝ => (x (.eta v r), x (.zif v r), x (.poisson v r)) by fun_prop)
      (measurableSet_countEvent _ _ _ _)
  | categorical k =>
    have : {x : DrawIx N n → ℝ | ∀ i < k, T (fmt v i) r = 1 → ∀ c < k, c ≠ i →
        if strict then mean (fmt v c) r + x (.noise v c r) < mean (fmt v i) r + x (.noise v i r)
        else mean (fmt v c) r + x (.noise v c r) ≤ mean (fmt v i) r + x (.noise v i r)} =
        ⋂ i, ⋂ (_ : i < k), ⋂ (_ : T (fmt v i) r = 1), ⋂ c, ⋂ (_ : c < k), ⋂ (_ : c ≠ i), {x | if strict then
          mean (fmt v c) r + x (.noise v c r) < mean (fmt v i) r + x (.noise v i r)
        else mean (fmt v c) r + x (.noise v c r) ≤ mean (fmt v i) r + x (.noise v i r)} := by
      ext x
      simp
    change MeasurableSet {x : DrawIx N n → ℝ | ∀ i < k, T (fmt v i) r = 1 → _}
    rw [this]
    refine MeasurableSet.iInter fun i => MeasurableSet.iInter fun _ => MeasurableSet.iInter fun _ => MeasurableSet.iInter fun c =>
      MeasurableSet.iInter fun _ => MeasurableSet.iInter fun _ => ?_
    cases strict
    · exact measurableSet_le (by fun_prop) (by fun_prop)
    · exact measurableSet_lt (by fun_prop) (by fun_prop)

/-- The probability of a cell. -/
theorem cell_law (hD : RandomDraws "gumbel" gumbelLaw g noiseStd P D₀ D) (hstd : 0 < noiseStd) {p : ℝ} (hp0 : 0 ≤ p) (hp1 : p ≤ 1) (strict : Bool)
    {mean T : N → Col n} {v : N} (hv : ty v = .count ∨ ∃ k, ty v = .categorical k) (hT : InType fmt v T (ty v)) (r : Fin n) :
    P {ω | (fun i => (D ω).value "gumbel" g noiseStd i) ∈ cellEvent fmt g ty p strict mean T v r} =
      ENNReal.ofReal (cellProb fmt g ty noiseStd p mean T v r) := by
  rcases hv with hv | ⟨k, hv⟩
  · have h1 : iIndepFun (fun i ω => (D ω).value "gumbel" g noiseStd i) P := hD.indep
    have h2 : IndepFun (fun ω => (D ω).value "gumbel" g noiseStd (.zif v r)) (fun ω => (D ω).value "gumbel" g noiseStd (.poisson v r)) P :=
      h1.indepFun (by simp)
    have h3 : IndepFun (fun ω => (D ω).value "gumbel" g noiseStd (.eta v r))
        (fun ω => ((D ω).value "gumbel" g noiseStd (.zif v r), (D ω).value "gumbel" g noiseStd (.poisson v r))) P :=
      (h1.indepFun_prodMk hD.measurable (.zif v r) (.poisson v r) (.eta v r) (by simp) (by simp)).symm
    have e2 := (indepFun_iff_map_prod_eq_prod_map_map (hD.measurable _).aemeasurable (hD.measurable _).aemeasurable).1 h2
    have e3 := (indepFun_iff_map_prod_eq_prod_map_map (hD.measurable _).aemeasurable
      ((hD.measurable _).prodMk (hD.measurable _)).aemeasurable).1 h3
    rw [e2, hD.law, hD.law, hD.law] at e3
    simp only [drawLaw] at e3
    simp only [cellEvent, cellProb, hv]
    rw [← countEvent_law hp0 hp1, ← e3, Measure.map_apply ((hD.measurable _).prodMk ((hD.measurable _).prodMk (hD.measurable _)))
      (measurableSet_countEvent _ _ _ _)]
    rfl
  · rw [hv] at hT
    obtain ⟨i, hi, hTi, hTo⟩ := hT r
    have hs : 0 < noiseScale g noiseStd v := by unfold noiseScale; split <;> linarith
    have hsum : cellProb fmt g ty noiseStd p mean T v r = Real.exp (mean (fmt v i) r / noiseScale g noiseStd v) /
        ∑ c ∈ Finset.range k, Real.exp (mean (fmt v c) r / noiseScale g noiseStd v) := by
      simp only [cellProb, hv]
      rw [Finset.sum_eq_single i]
      · rw [if_pos hTi]
      · intro c hc hci
        rw [if_neg]
        rw [hTo c (Finset.mem_range.1 hc) hci]
        norm_num
      · intro h; exact absurd (Finset.mem_range.2 hi) h
    rw [hsum]
    obtain ⟨k, rfl⟩ : ∃ k', k = k' + 1 := ⟨k - 1, by omega⟩
    have h1 : iIndepFun (fun (c : Fin (k + 1)) ω => (D ω).value "gumbel" g noiseStd (.noise v c r)) P :=
      hD.indep.precomp (g := fun c : Fin (k + 1) => DrawIx.noise v c r) (fun a b h => by
        simpa [Fin.val_inj] using h)
    have h2 := (iIndepFun_iff_map_fun_eq_pi_map fun c => (hD.measurable _).aemeasurable).1 h1
    simp only [hD.law, drawLaw] at h2
    have hm : Measurable fun ω (c : Fin (k + 1)) => (D ω).value "gumbel" g noiseStd (.noise v c r) :=
      measurable_pi_lambda _ fun c => hD.measurable _
    have hall : ∀ j < k + 1, T (fmt v j) r = 1 → j = i := by
      intro j hj h
      by_contra hc
      rw [hTo j hj hc] at h
      norm_num at h
    rw [← Fin.sum_univ_eq_sum_range fun c => Real.exp (mean (fmt v c) r / noiseScale g noiseStd v)]
    cases strict with
    | true =>
      rw [← gumbel_max_lt (fun c : Fin (k + 1) => mean (fmt v c) r) ⟨i, hi⟩ hs, ← h2, Measure.map_apply hm]
      · congr 1
        ext ω
        simp only [cellEvent, hv, if_true]
        constructor
        · intro h c hc
          exact h i hi hTi c c.2 fun h' => hc (Fin.ext h')
        · intro h j hj hTj c hc hcj
          obtain rfl := hall j hj hTj
          exact h ⟨c, hc⟩ fun h' => hcj (Fin.mk.inj_iff.1 h')
      · exact measurableSet_max_lt _ _
    | false =>
      rw [← gumbel_max_le (fun c : Fin (k + 1) => mean (fmt v c) r) ⟨i, hi⟩ hs, ← h2, Measure.map_apply hm]
      · congr 1
        ext ω
        simp only [cellEvent, hv]
        constructor
        · intro h c
          by_cases hc : c = ⟨i, hi⟩
          · rw [hc]
          · exact h i hi hTi c c.2 fun h' => hc (Fin.ext h')
        · intro h j hj hTj c hc hcj
          obtain rfl := hall j hj hTj
          exact h ⟨c, hc⟩
      · exact measurableSet_max_le _ _

/-- The probability of all cells. -/
theorem cells_law (hD : RandomDraws "gumbel" gumbelLaw g noiseStd P D₀ D) (hstd : 0 < noiseStd) {p : ℝ} (hp0 : 0 ≤ p) (hp1 : p ≤ 1) (strict : Bool)
    {mean : N → N → Col n} {T : N → Col n} (hv : Discrete g ty) (hT : ∀ v ∈ g.nodes, InType fmt v T (ty v)) :
    P {ω | ∀ v ∈ g.nodes, ∀ r, (fun i => (D ω).value "gumbel" g noiseStd i) ∈ cellEvent fmt g ty p strict (mean v) T v r} =
      ∏ v ∈ g.nodes.toFinset, ∏ r, ENNReal.ofReal (cellProb fmt g ty noiseStd p (mean v) T v r) := by
  have h1 := prob_blocks (P := P) hD.measurable hD.indep (g.nodes.toFinset ×ˢ (Finset.univ : Finset (Fin n)))
    (fun b => cellIx ty b.1 b.2) (fun b _ b' _ h => cellIx_disjoint h) (fun b => cellEvent fmt g ty p strict (mean b.1) T b.1 b.2)
    (fun b _ => measurableSet_cellEvent _ _ _ _ _ _) fun b _ x y h hx => cellEvent_dep h hx
  rw [Finset.prod_product] at h1
  rw [show {ω | ∀ v ∈ g.nodes, ∀ r, (fun i => (D ω).value "gumbel" g noiseStd i) ∈ cellEvent fmt g ty p strict (mean v) T v r} =
    {ω | ∀ b ∈ g.nodes.toFinset ×ˢ (Finset.univ : Finset (Fin n)), (fun i => (D ω).value "gumbel" g noiseStd i) ∈
      cellEvent fmt g ty p strict (mean b.1) T b.1 b.2} by
    ext ω
    simp only [Set.mem_ofPred_eq, Finset.mem_product, List.mem_toFinset, Finset.mem_univ, and_true, Prod.forall]
    exact ⟨fun h v r hv => h v hv r, fun h v hv r => h v r hv⟩, h1]
  refine Finset.prod_congr rfl fun v hvm => Finset.prod_congr rfl fun r _ => ?_
  rw [List.mem_toFinset] at hvm
  exact cell_law hD hstd hp0 hp1 strict (hv v hvm) (hT v hvm) r

theorem pred_before {order : List N} (ho : IsTopo g.nodes g.pairs order) (ha : Verif.Graph.Acyclic g.pairs) {u v : N}
    (hu : u ∈ order) (hv : v ∈ order) (h : u ∈ g.preds v) : order.idxOf u < order.idxOf v := by
  obtain ⟨o1, o2, o3⟩ := topo_blocks ho ha
  by_contra hc
  rw [not_lt] at hc
  have hne : u ≠ v := by
    rintro rfl
    exact o2 u hv h
  have h1 := List.idxOf_lt_length_iff.2 hu
  have h2 := List.idxOf_lt_length_iff.2 hv
  rcases hc.lt_or_eq with hlt | heq
  · have := List.pairwise_iff_getElem.1 o3 _ _ h2 h1 hlt
    rw [List.getElem_idxOf, List.getElem_idxOf] at this
    exact this h
  · have e1 := List.getElem_idxOf h1
    have e2 := List.getElem_idxOf h2
    apply hne
    rw [← e1, ← e2]
    simp only [heq]

theorem frameOf_unique {F : SemFrame N n} {val T : N → Col n} (h1 : FrameOf fmt g.nodes ty F val) (h2 : FrameOf fmt g.nodes ty F T) :
    ∀ v ∈ g.nodes, ∀ f ∈ (ty v).features fmt v, val f = T f := by
  intro v hv f hf
  exact ((h2.2 f (val f)).1 ((h1.2 f (val f)).2 ⟨⟨v, hv, hf⟩, rfl⟩)).2

theorem frameOf_congr {F : SemFrame N n} {val T : N → Col n} (h1 : FrameOf fmt g.nodes ty F val)
    (h : ∀ v ∈ g.nodes, ∀ f ∈ (ty v).features fmt v, val f = T f) : FrameOf fmt g.nodes ty F T := by
  refine ⟨h1.1, fun f c => (h1.2 f c).trans (and_congr_right ?_)⟩
  rintro ⟨v, hv, hf⟩
  rw [h v hv f hf]

theorem poissonQuantile_unique {rate u : ℝ} {j j' : ℕ} (h : PoissonQuantile rate u j) (h' : PoissonQuantile rate u j') : j = j' := by
  rcases lt_trichotomy j j' with hlt | h1 | hlt
  · have := h.2.2 (hlt.trans_le h'.2.1)
    exact absurd this (not_lt.2 (h'.1 j hlt))
  · exact h1
  · have := h'.2.2 (hlt.trans_le h.2.1)
    exact absurd this (not_lt.2 (h.1 j' hlt))

theorem noiseOf_gumbel (g : SemGraph N) (D : SemDraws N n) (noiseStd : ℝ) (v : N) (c : ℕ) (r : Fin n) :
    noiseOf g D noiseStd "gumbel" v c r = D.value "gumbel" g noiseStd (.noise v c r) := by
  unfold noiseOf
  dsimp only
  rw [if_neg (by decide)]
  rfl

/-- The law of a table whose columns satisfy structural equations with the means `M`. -/
theorem law_core (hg : g.WF) (ha : Verif.Graph.Acyclic g.pairs) {order : List N} (ho : IsTopo g.nodes g.pairs order)
    (hdis : Discrete g ty) (hD : RandomDraws "gumbel" gumbelLaw g noiseStd P D₀ D) (hstd : 0 < noiseStd) (hp0 : 0 ≤ dist.count) (hp1 : dist.count ≤ 1)
    (hcat : dist.categorical = "gumbel") {gen : Ω → Except Err (SemFrame N n)} {M : (N → Col n) → N → N → Col n}
    (hM : ∀ v ∈ g.nodes, ∀ val val' : N → Col n, (∀ u ∈ g.preds v, ∀ f ∈ (ty u).features fmt u, val f = val' f) →
      ∀ h ∈ (ty v).features fmt v, M val v h = M val' v h)
    (hgen : ∀ ω, ∃ F, gen ω = .ok F ∧ ∃ val : N → Col n, FrameOf fmt g.nodes ty F val ∧
      ∀ v ∈ g.nodes, Realises fmt g (D ω) noiseStd dist v (M val v) val (ty v))
    {T : N → Col n} (hT : ∀ v ∈ g.nodes, InType fmt v T (ty v)) :
    P {ω | ∃ F, gen ω = .ok F ∧ FrameOf fmt g.nodes ty F T} =
      ∏ v ∈ g.nodes.toFinset, ∏ r, ENNReal.ofReal (cellProb fmt g ty noiseStd dist.count (M T v) T v r) := by
  have hpred : ∀ v u, u ∈ g.preds v → u ∈ g.nodes := fun v u h => (hg.ends _ (mem_preds.1 h)).1
  have hcount : ∀ v ∈ g.nodes, ty v = .count → ∀ r, T v r = ⌊T v r⌋₊ := by
    intro v hv ht r
    have := hT v hv
    rw [ht] at this
    obtain ⟨c, hc⟩ := this r
    rw [hc, Nat.floor_natCast]
  apply le_antisymm
  · rw [← cells_law (fmt := fmt) (mean := M T) hD hstd hp0 hp1 false hdis hT]
    refine measure_mono ?_
    rintro ω ⟨F, hF, hFT⟩ v hv r
    obtain ⟨F', hF', val, hval, hR⟩ := hgen ω
    rw [hF] at hF'
    cases hF'
    have heq := frameOf_unique hval hFT
    have hMv := hM v hv val T fun u hu f hf => heq u (hpred v u hu) f hf
    have hRv := hR v hv
    rcases hdis v hv with ht | ⟨k, ht⟩
    · rw [ht] at hRv
      obtain ⟨cnt, hc⟩ := hRv
      obtain ⟨h1, h2⟩ := hc r
      have hfe : v ∈ (ty v).features fmt v := by rw [ht]; simp [VarType.features]
      have hcr : ⌊T v r⌋₊ = cnt r := by rw [← heq v hv v hfe, h1, Nat.floor_natCast]
      simp only [cellEvent, ht]
      change if _ then _ else _
      rw [hcr]
      rw [hMv v hfe] at h2
      exact h2
    · rw [ht] at hRv
      obtain ⟨choice, hc⟩ := hRv
      obtain ⟨h1, h2, h3⟩ := hc r
      have hfe : ∀ c < k, fmt v c ∈ (ty v).features fmt v := by
        intro c hc
        rw [ht]
        exact List.mem_map.2 ⟨c, List.mem_range.2 hc, rfl⟩
      simp only [cellEvent, ht]
      intro i hi hTi c hc hci
      have h4 := h3 i hi
      rw [heq v hv _ (hfe i hi), hTi] at h4
      have h5 : i = choice r := by
        by_contra hne
        rw [if_neg hne] at h4
        norm_num at h4
      have h6 := h2 c hc
      dsimp only at h6
      rw [← h5, hcat, noiseOf_gumbel, noiseOf_gumbel, hMv _ (hfe c hc), hMv _ (hfe i hi)] at h6
      simpa using h6
  · rw [← cells_law (fmt := fmt) (mean := M T) hD hstd hp0 hp1 true hdis hT]
    refine measure_mono ?_
    intro ω hω
    obtain ⟨F, hF, val, hval, hR⟩ := hgen ω
    refine ⟨F, hF, frameOf_congr hval ?_⟩
    have key : ∀ (d : ℕ) (v : N), v ∈ g.nodes → order.idxOf v = d → ∀ f ∈ (ty v).features fmt v, val f = T f := by
      intro d
      induction d using Nat.strong_induction_on with
      | _ d ih =>
        intro v hv hd
        have hMv := hM v hv val T fun u hu f hf =>
          ih (order.idxOf u) (hd ▸ pred_before ho ha (ho.perm.mem_iff.2 (hpred v u hu)) (ho.perm.mem_iff.2 hv) hu) u (hpred v u hu) rfl f hf
        have hRv := hR v hv
        have hE := fun r => hω v hv r
        rcases hdis v hv with ht | ⟨k, ht⟩
        · rw [ht] at hRv ⊢
          obtain ⟨cnt, hc⟩ := hRv
          intro f hf
          simp only [VarType.features, List.mem_singleton] at hf
          subst hf
          ext r
          obtain ⟨h1, h2⟩ := hc r
          have hfe : f ∈ (ty f).features fmt f := by rw [ht]; simp [VarType.features]
          have hEr := hE r
          simp only [cellEvent, ht] at hEr
          change if _ then _ else _ at hEr
          rw [hMv f hfe] at h2
          rw [h1, hcount f hv ht r]
          congr 1
          change if (D ω).zif f r < dist.count then ⌊T f r⌋₊ = 0 else PoissonQuantile _ ((D ω).poisson f r) _ at hEr
          by_cases hz : (D ω).zif f r < dist.count
          · rw [if_pos hz] at h2 hEr
            rw [h2, hEr]
          · rw [if_neg hz] at h2 hEr
            exact poissonQuantile_unique h2 hEr
        · have hTv := hT v hv
          rw [ht] at hRv hTv
          obtain ⟨choice, hc⟩ := hRv
          have hfe : ∀ c < k, fmt v c ∈ (ty v).features fmt v := by
            intro c hc
            rw [ht]
            exact List.mem_map.2 ⟨c, List.mem_range.2 hc, rfl⟩
          intro f hf
          rw [ht] at hf
          obtain ⟨c, hck, rfl⟩ := List.mem_map.1 hf
          rw [List.mem_range] at hck
          ext r
          obtain ⟨h1, h2, h3⟩ := hc r
          obtain ⟨i, hi, hTi, hTo⟩ := hTv r
          have hEr := hE r
          simp only [cellEvent, ht] at hEr
          have h5 : choice r = i := by
            by_contra hne
            have h6 := hEr i hi hTi (choice r) h1 hne
            simp only [if_true] at h6
            have h7 := h2 i hi
            dsimp only at h7
            rw [hcat, noiseOf_gumbel, noiseOf_gumbel, hMv _ (hfe _ h1), hMv _ (hfe i hi)] at h7
            exact absurd h6 (not_lt.2 h7)
          rw [h3 c hck, h5]
          by_cases hci : c = i
          · rw [if_pos hci, hci, hTi]
          · rw [if_neg hci, hTo c hck hci]
    exact fun v hv => key _ v hv rfl

end

end Verif.Generators
