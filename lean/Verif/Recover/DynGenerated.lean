import Verif.Recover.DynProps
import Verif.Recover.Stable
import Verif.Recover.Noise
import Verif.Generators.SimulateProps

/-!
# C138: from `generate_dataframe_dynamic` to `from_numpy_dynamic`
-/

namespace Verif.Recover

open MeasureTheory ProbabilityTheory Verif.Notears Verif.Dynotears Verif.Generators Verif.Str

/-- `df[names].values` (pandas, external). -/
def asArray (F : DataFrame ℝ) (names : List Str) : Data ℝ where
  rows := F.rows
  cols := names.length
  entry r j := names[j]?.bind fun c => F.get c r

/-- The weights by position, as the generator uses them: the `i`-th lagged column of the `k`-th block has the effect of the `i`-th
variable after `k` steps (`structure/data_generators/wrappers.py:552-555`). -/
noncomputable def dynWeights (g : Graph Str ℝ) (k i j : ℕ) : ℝ :=
  match k with
  | 0 => weightIn g ((intraNodes g).getD i []) ((intraNodes g).getD j [])
  | k + 1 => weightIn g ((interNodes g).getD (k * (intraNodes g).length + i) []) ((intraNodes g).getD j [])

theorem intraEdges_acyclic {d : ℕ} {w : ℕ → ℕ → ℝ} (h : AcyclicWeights d w) : Verif.Graph.Acyclic (intraEdges d w) := by
  have hE : ∀ a b, Verif.Graph.EdgeRel (intraEdges d w) a b → a < d ∧ b < d ∧ w a b ≠ 0 := by
    intro a b hab
    unfold Verif.Graph.EdgeRel intraEdges at hab
    rw [List.mem_filter] at hab
    exact ⟨(mem_cells.1 hab.1).1, (mem_cells.1 hab.1).2, by simpa using hab.2⟩
  have key : ∀ a b, Relation.TransGen (Verif.Graph.EdgeRel (intraEdges d w)) a b → ∃ (ha : a < d) (hb : b < d),
      Relation.TransGen (fun x y : Fin d => w x y ≠ 0) ⟨a, ha⟩ ⟨b, hb⟩ := by
    intro a b hab
    induction hab with
    | single h1 => exact ⟨(hE _ _ h1).1, (hE _ _ h1).2.1, .single (hE _ _ h1).2.2⟩
    | tail _ h2 ih =>
      obtain ⟨ha, hb, h3⟩ := ih
      exact ⟨ha, (hE _ _ h2).2.1, h3.tail (hE _ _ h2).2.2⟩
  intro v hv
  obtain ⟨h1, h2, h3⟩ := key v v hv
  exact h ⟨v, h1⟩ h3

theorem generateDataframe_succeeds {g : Graph Str ℝ} {p : ℕ} (hd : intraNodes g ≠ []) (hu : AcyclicWeights (intraNodes g).length (dynWeights g 0))
    (hp : (interNodes g).length = p * (intraNodes g).length) {semType : String} (hs : semType ∈ ["linear-gauss", "linear-exp", "linear-gumbel"])
    (n burnIn : ℕ) (drift : Option (ℕ → ℝ)) (noise : ℕ → ℕ → ℝ) (order : List ℕ) :
    ∃ F, generateDataframe g n burnIn semType drift noise order = .ok F := by
  have h1 : Verif.Graph.isDag (List.range (intraNodes g).length) (intraEdges (intraNodes g).length (dynWeights g 0)) = true := by
    refine (Verif.Graph.isDag_iff _ _ ?_).2 (intraEdges_acyclic hu)
    intro e he
    unfold intraEdges at he
    have := mem_cells.1 (List.mem_filter.1 he).1
    exact ⟨List.mem_range.2 this.1, List.mem_range.2 this.2⟩
  have h2 : (intraNodes g).length ≠ 0 := fun h => hd (List.length_eq_zero_iff.1 h)
  unfold generateDataframe
  rw [if_neg (not_not.2 hs)]
  dsimp only
  rw [if_neg h2]
  change ∃ F, (if Verif.Graph.isDag (List.range (intraNodes g).length) (intraEdges (intraNodes g).length (dynWeights g 0)) = false then _
    else _) = Except.ok F
  rw [if_neg (by rw [h1]; simp), if_neg (by rw [hp]; simp)]
  exact ⟨_, rfl⟩

/-- The generated series, with `p` zeros before. -/
noncomputable def series (g : Graph Str ℝ) (p : ℕ) (noise : ℕ → ℕ → ℝ) (order : List ℕ) (t : ℕ) (j : Fin (intraNodes g).length) : ℝ :=
  if t < p then 0 else (simulate (intraNodes g).length (interNodes g).length (dynWeights g 0)
    (fun q j => weightIn g ((interNodes g).getD q []) ((intraNodes g).getD j [])) (fun _ => 0) noise order (t - p)).1 j

/-- The noise, with `p` zeros before. -/
noncomputable def shocks (g : Graph Str ℝ) (p : ℕ) (noise : ℕ → ℕ → ℝ) (t : ℕ) (j : Fin (intraNodes g).length) : ℝ :=
  if t < p then 0 else noise (t - p) j

theorem series_follows {g : Graph Str ℝ} {p : ℕ} (hu : AcyclicWeights (intraNodes g).length (dynWeights g 0))
    (hp : (interNodes g).length = p * (intraNodes g).length) (noise : ℕ → ℕ → ℝ) {order : List ℕ}
    (ho : IsTopo (List.range (intraNodes g).length) (intraEdges (intraNodes g).length (dynWeights g 0)) order) :
    Follows (intraNodes g).length p (dynWeights g) (series g p noise order) (shocks g p noise) := by
  intro t ht j
  obtain ⟨s, rfl⟩ := Nat.exists_eq_add_of_le ht
  have hself : ∀ j < (intraNodes g).length, dynWeights g 0 j j = 0 := by
    intro j hj
    by_contra hc
    exact hu ⟨j, hj⟩ (.single hc)
  have hrow := simulate_row (R := (interNodes g).length) (a := fun q j => weightIn g ((interNodes g).getD q []) ((intraNodes g).getD j []))
    (drift := fun _ => 0) (noise := noise) ho hself s j.2
  have h1 : ∀ i, series g p noise order (p + s) i = (simulate (intraNodes g).length (interNodes g).length (dynWeights g 0)
      (fun q j => weightIn g ((interNodes g).getD q []) ((intraNodes g).getD j [])) (fun _ => 0) noise order s).1 i := fun i => by
    rw [series, if_neg (by omega), Nat.add_sub_cancel_left]
  have h2 : shocks g p noise (p + s) j = noise s j := by rw [shocks, if_neg (by omega), Nat.add_sub_cancel_left]
  have h3 : ∀ k < p, ∀ i : Fin (intraNodes g).length, series g p noise order (p + s - (k + 1)) i =
      (simulate (intraNodes g).length (interNodes g).length (dynWeights g 0)
      (fun q j => weightIn g ((interNodes g).getD q []) ((intraNodes g).getD j [])) (fun _ => 0) noise order s).2
        (k * (intraNodes g).length + i) := by
    intro k hk i
    rw [simulate_lags _ _ i.2, series]
    by_cases hks : k < s
    · rw [if_neg (by omega), if_pos hks, show p + s - (k + 1) - p = s - 1 - k by omega]
    · rw [if_pos (by omega), if_neg hks]
  have h5 := sum_blocks (fun q => (simulate (intraNodes g).length (interNodes g).length (dynWeights g 0)
      (fun q j => weightIn g ((interNodes g).getD q []) ((intraNodes g).getD j [])) (fun _ => 0) noise order s).2 q *
      weightIn g ((interNodes g).getD q []) ((intraNodes g).getD j [])) p (intraNodes g).length
  have hsum : ∀ (m : ℕ) (f : ℕ → ℝ), ((List.range m).map f).sum = ∑ k ∈ Finset.range m, f k := fun m f => rfl
  have h6 : ∀ k, ∀ i : Fin (intraNodes g).length, dynWeights g (k + 1) i j =
      weightIn g ((interNodes g).getD (k * (intraNodes g).length + i) []) ((intraNodes g).getD j []) := fun k i => rfl
  rw [hsum, hsum, zero_add] at hrow
  rw [h1, h2, hrow]
  congr 2
  · rw [Finset.sum_range]
    exact Finset.sum_congr rfl fun i _ => by rw [h1]
  · rw [show Finset.range (interNodes g).length = Finset.range (p * (intraNodes g).length) by rw [hp], h5]
    refine Finset.sum_congr rfl fun k hk => ?_
    rw [Finset.sum_range]
    exact Finset.sum_congr rfl fun i _ => by rw [h3 k (Finset.mem_range.1 hk) i, h6]

section
variable {Ω : Type} [MeasurableSpace Ω] {P : Measure Ω} [IsProbabilityMeasure P] {ν : Measure ℝ} {v : ℝ} {g : Graph Str ℝ} {p : ℕ}

/-- The bound of the moments. -/
noncomputable def momentBound {d : ℕ} (ν : Measure ℝ) (v ρ : ℝ) (b : Fin d → ℝ) : ℝ :=
  (∫ x, x ^ 4 ∂ν) + ∑ j, b j ^ 2 * ∑ i, v / (1 - ρ) ^ 2 / b i ^ 2

/-- Independent noise makes errors as C138 requires. -/
theorem series_innovations {b : Fin (intraNodes g).length → ℝ} {ρ : ℝ} (hs : Stable (intraNodes g).length p (dynWeights g) b ρ)
    (hu : AcyclicWeights (intraNodes g).length (dynWeights g 0)) (hp : (interNodes g).length = p * (intraNodes g).length)
    {order : List ℕ} (ho : IsTopo (List.range (intraNodes g).length) (intraEdges (intraNodes g).length (dynWeights g 0)) order)
    (hv : 0 < v) (hν : Centred ν v) {noise : Ω → ℕ → ℕ → ℝ}
    (hI : Iid P ν (fun (q : ℕ × Fin (intraNodes g).length) ω => noise ω q.1 q.2)) :
    Innovations P (intraNodes g).length p v (momentBound ν v ρ b) (fun t ω => series g p (noise ω) order t)
      (fun t ω => shocks g p (noise ω) t) := by
  have hF : ∀ ω, Follows (intraNodes g).length p (dynWeights g) (fun t => series g p (noise ω) order t) (fun t => shocks g p (noise ω) t) :=
    fun ω => series_follows hu hp (noise ω) ho
  have hsh : ∀ t, p ≤ t → ∀ j, (fun ω => shocks g p (noise ω) t j) = fun ω => noise ω (t - p) j := fun t ht j => by
    funext ω
    rw [shocks, if_neg (by omega)]
  have hmj : ∀ t, p ≤ t → ∀ j, Measurable (fun ω => shocks g p (noise ω) t j) := fun t ht j => by
    rw [hsh t ht j]
    exact hI.measurable (t - p, j)
  have hm : ∀ t, p ≤ t → Measurable (fun ω => shocks g p (noise ω) t) := fun t ht => measurable_pi_iff.2 (hmj t ht)
  have hx0 : ∀ t, t < p → (fun ω => series g p (noise ω) order t) = fun _ _ => 0 := fun t ht => by
    funext ω j
    rw [series, if_pos ht]
  have h40 : 0 ≤ ∫ x, x ^ 4 ∂ν := integral_nonneg fun x => by positivity
  have hsq0 : ∀ j, 0 ≤ b j ^ 2 * ∑ i, v / (1 - ρ) ^ 2 / b i ^ 2 := fun j =>
    mul_nonneg (sq_nonneg _) (Finset.sum_nonneg fun i _ => by positivity)
  have hsq : ∀ t, p ≤ t → ∀ j, MemLp (fun ω => shocks g p (noise ω) t j) 2 P ∧ ∫ ω, shocks g p (noise ω) t j ^ 2 ∂P ≤ v := by
    intro t ht j
    have h1 := hI.product_memLp hν (t - p, j) (t - p, j)
    have h2 := hI.product_mean hν (t - p, j) (t - p, j)
    rw [if_pos rfl] at h2
    constructor
    · refine (memLp_two_iff_integrable_sq (hmj t ht j).aestronglyMeasurable).2 ?_
      refine (h1.integrable (by norm_num)).congr (ae_of_all _ fun ω => ?_)
      simp only [congrFun (hsh t ht j) ω]
      ring
    · refine le_of_eq (Eq.trans ?_ h2)
      refine integral_congr_ae (ae_of_all _ fun ω => ?_)
      simp only [congrFun (hsh t ht j) ω]
      ring
  constructor
  · intro t
    exact value_measurable (T := t + 1) hu hF (fun s _ hsp => by rw [hx0 s hsp]; exact measurable_const) (fun s _ hsp => hm s hsp) t (by omega)
  · intro t ht
    refine indep_values (p := p) hu hF ?_
    let S : Finset (ℕ × Fin (intraNodes g).length) := {t - p} ×ˢ Finset.univ
    let T : Finset (ℕ × Fin (intraNodes g).length) := Finset.range (t - p) ×ˢ Finset.univ
    have hST : Disjoint S T := by
      rw [Finset.disjoint_left]
      rintro ⟨s, j⟩ h1 h2
      simp only [S, T, Finset.mem_product, Finset.mem_singleton, Finset.mem_range] at h1 h2
      omega
    have h1 := hI.indep.indepFun_finset S T hST hI.measurable
    have h2 := h1.comp (φ := fun (f : S → ℝ) (j : Fin (intraNodes g).length) => f ⟨(t - p, j), by simp [S]⟩)
      (ψ := fun (f : T → ℝ) (s : Fin t) (j : Fin (intraNodes g).length) => if h : s.1 < p then 0 else f ⟨(s - p, j), by
        simp only [T, Finset.mem_product, Finset.mem_range, Finset.mem_univ, and_true]
        have := s.2
        omega⟩) (measurable_pi_iff.2 fun j => measurable_pi_apply _)
      (measurable_pi_iff.2 fun s => measurable_pi_iff.2 fun j => by
        by_cases h : s.1 < p
        · simp only [h, dif_pos]
          exact measurable_const
        · simp only [h, dif_neg, not_false_eq_true]
          exact measurable_pi_apply _)
    convert h2 using 1
    · funext ω j
      rw [shocks, if_neg (by omega)]
      rfl
    · funext ω s j
      by_cases h : s.1 < p
      · simp only [h, if_true, Function.comp, dif_pos]
        rw [series, if_pos h]
      · simp only [h, if_false, Function.comp, dif_neg, not_false_eq_true]
        rw [shocks, if_neg h]
  · intro t ht j
    have h1 := hI.integral (t - p, j) (f := fun x => x) measurable_id
    rw [hν.mean] at h1
    rw [hsh t ht j]
    exact h1
  · intro t ht j k
    have h1 := hI.product_mean hν (t - p, j) (t - p, k)
    simp only [Prod.mk.injEq, true_and] at h1
    rw [← h1]
    refine integral_congr_ae (ae_of_all _ fun ω => ?_)
    simp only [congrFun (hsh t ht j) ω, congrFun (hsh t ht k) ω]
  · intro t ht j
    have h1 := hI.integral (t - p, j) (f := fun x => x ^ 4) (measurable_id.pow_const 4)
    have h2 := hI.integrable (t - p, j) hν.fourth
    have h3 : (fun ω => shocks g p (noise ω) t j ^ 4) = fun ω => noise ω (t - p) j ^ 4 := by
      funext ω
      rw [congrFun (hsh t ht j) ω]
    rw [h3]
    refine ⟨h2, h1.le.trans ?_⟩
    unfold momentBound
    linarith [Finset.sum_nonneg fun j (_ : j ∈ Finset.univ) => hsq0 j]
  · intro t j
    have h1 := square_bounded (P := P) (Z := v) hs hv.le hu hF (fun s hsp k => by
      have : (fun ω => series g p (noise ω) order s k) = fun _ => 0 := by
        funext ω
        rw [series, if_pos hsp]
      constructor
      · rw [this]
        exact MemLp.zero
      · simp only [congrFun this]
        simpa using hv.le) hsq t j
    refine ⟨h1.1, h1.2.trans ?_⟩
    unfold momentBound
    have := Finset.single_le_sum (f := fun j => b j ^ 2 * ∑ i, v / (1 - ρ) ^ 2 / b i ^ 2) (fun j _ => hsq0 j) (Finset.mem_univ j)
    linarith

end

/-- The arrays of the generated data frame. -/
theorem generated_windows {g : Graph Str ℝ} (hg : g.nodes.Nodup) {p : ℕ} (hp : (interNodes g).length = p * (intraNodes g).length) {n burnIn : ℕ}
    (hn : 0 < n) {semType : String} {noise : ℕ → ℕ → ℝ} {order : List ℕ} {F : DataFrame ℝ}
    (h : generateDataframe g n burnIn semType none noise order = .ok F) :
    Windows (intraNodes g).length p n (fun t => series g p noise order (t + burnIn)) (asArray F (intraNodes g)) (asArray F (interNodes g)) := by
  obtain ⟨hd, hdag, hmod, hrows, hcols, hX, hL⟩ := generateDataframe_ok hg h
  rw [if_neg hn.ne'] at hrows
  simp only [if_neg hn.ne', Option.getD_none] at hX hL
  refine ⟨hrows, rfl, hp, fun r hr j => ?_, fun r hr k hk i => ?_⟩
  · have h1 := hX j j.2 r (by omega)
    simp only [Data.val, asArray, List.getElem?_eq_getElem j.2, Option.bind_some]
    rw [List.getD_eq_getElem _ _ j.2] at h1
    rw [h1, series, if_neg (by omega), show r + p + burnIn - p = burnIn + r by omega]
    rfl
  · have hq : k * (intraNodes g).length + i < (interNodes g).length := by
      rw [hp]
      calc k * (intraNodes g).length + i < k * (intraNodes g).length + (intraNodes g).length := by have := i.2; omega
        _ = (k + 1) * (intraNodes g).length := by ring
        _ ≤ p * (intraNodes g).length := Nat.mul_le_mul_right _ hk
    have h1 := hL _ hq r (by omega)
    simp only [Data.val, asArray, List.getElem?_eq_getElem hq, Option.bind_some]
    rw [List.getD_eq_getElem _ _ hq] at h1
    rw [h1, Option.getD_some, simulate_lags _ _ i.2, series]
    by_cases hks : k < burnIn + r
    · rw [if_pos hks, if_neg (by omega), show r + p - (k + 1) + burnIn - p = burnIn + r - 1 - k by omega]
      rfl
    · rw [if_neg hks, if_pos (by omega)]

/-- **C138** for generated data: let the weights of a dynamic structure be stable and acyclic within a time step, and the noise independent
with mean 0 and the same mean square.  Then the probability that DYNOTEARS does not learn the weights, by position, from the `n` rows of
`generate_dataframe_dynamic` is at most `c / n`, whatever the number of discarded rows. -/
theorem generated_series_learned {g : Graph Str ℝ} (hg : g.nodes.Nodup) (hd : intraNodes g ≠ []) {p : ℕ}
    (hp : (interNodes g).length = p * (intraNodes g).length) (hu : AcyclicWeights (intraNodes g).length (dynWeights g 0))
    {b : Fin (intraNodes g).length → ℝ} {ρ : ℝ} (hs : Stable (intraNodes g).length p (dynWeights g) b ρ) {semType : String}
    (hsem : semType ∈ ["linear-gauss", "linear-exp", "linear-gumbel"]) {ν : Measure ℝ} {v ε : ℝ} (hv : 0 < v) (hν : Centred ν v) (hε : 0 < ε) :
    ∃ δ > 0, ∃ c : ℝ, ∀ (Ω : Type) (_ : MeasurableSpace Ω) (P : Measure Ω) (noise : Ω → ℕ → ℕ → ℝ) (order : List ℕ) (n burnIn : ℕ),
      IsProbabilityMeasure P → Iid P ν (fun (q : ℕ × Fin (intraNodes g).length) ω => noise ω q.1 q.2) →
      IsTopo (List.range (intraNodes g).length) (intraEdges (intraNodes g).length (dynWeights g 0)) order → 0 < n →
      P {ω | ¬ ∃ F, generateDataframe g n burnIn semType none (noise ω) order = .ok F ∧
        LearnsDyn (intraNodes g).length p (asArray F (intraNodes g)) (asArray F (interNodes g)) (dynWeights g) ε δ} ≤
        ENNReal.ofReal (c / n) := by
  obtain ⟨δ, hδ, c, h⟩ := series_learned (p := p) (C := momentBound ν v ρ b) (fun h0 => hd (List.length_eq_zero_iff.1 h0)) hu hv hε
  refine ⟨δ, hδ, c, fun Ω _ P noise order n burnIn _ hI ho hn => ?_⟩
  have h1 := (series_innovations hs hu hp ho hv hν hI).shift burnIn
  have h2 := h Ω _ P _ _ n inferInstance (fun ω => (series_follows hu hp (noise ω) ho).shift burnIn) h1 hn
  refine le_trans (measure_mono ?_) h2
  intro ω hω hall
  obtain ⟨F, hF⟩ := generateDataframe_succeeds (p := p) hd hu hp hsem n burnIn none (noise ω) order
  exact hω ⟨F, hF, hall _ _ (generated_windows hg hp hn hF)⟩

/-! ### What the positions mean -/

/-- With a single lag the weights by position are those of the edges between the nodes of these names. -/
theorem dynWeights_oneLag {vars : List Str} {g : Graph Str ℝ} (hg : Lagged vars 1 g) (hv : ∀ u ∈ vars, '_' ∉ u) :
    ∃ vs : List Str, vs.Perm vars ∧ (intraNodes g).length = vs.length ∧ (interNodes g).length = 1 * vs.length ∧
      ∀ k ≤ 1, ∀ i (hi : i < vs.length) j (hj : j < vs.length), dynWeights g k i j = weightIn g (lagName vs[i] k) (lagName vs[j] 0) := by
  obtain ⟨vs, hperm, hsorted, hintra⟩ := intraNodes_lagged hg hv
  have hnd : vs.Nodup := hperm.nodup_iff.2 hg.distinct
  have hinter : interNodes g = vs.map fun u => lagName u 1 := by
    refine interNodes_lagged hg hv (hnd.map fun a b h => (lagName_inj h).1) (fun x => ?_) (hsorted 1)
    rw [List.mem_map]
    constructor
    · rintro ⟨u, hu, rfl⟩
      exact ⟨u, hperm.mem_iff.1 hu, 1, le_refl _, le_refl _, rfl⟩
    · rintro ⟨u, hu, k, h1, h2, rfl⟩
      obtain rfl : k = 1 := by omega
      exact ⟨u, hperm.mem_iff.2 hu, rfl⟩
  refine ⟨vs, hperm, by rw [hintra, List.length_map], by rw [hinter, List.length_map, one_mul], ?_⟩
  intro k hk i hi j hj
  have h0 : ∀ i (hi : i < vs.length), (intraNodes g).getD i [] = lagName vs[i] 0 := fun i hi => by
    rw [hintra, List.getD_eq_getElem _ _ (by simpa using hi), List.getElem_map]
  have h1 : ∀ i (hi : i < vs.length), (interNodes g).getD i [] = lagName vs[i] 1 := fun i hi => by
    rw [hinter, List.getD_eq_getElem _ _ (by simpa using hi), List.getElem_map]
  rcases Nat.le_one_iff_eq_zero_or_eq_one.1 hk with rfl | rfl
  · change weightIn g ((intraNodes g).getD i []) ((intraNodes g).getD j []) = _
    rw [h0 i hi, h0 j hj]
  · change weightIn g ((interNodes g).getD (0 * (intraNodes g).length + i) []) ((intraNodes g).getD j []) = _
    rw [Nat.zero_mul, Nat.zero_add, h1 i hi, h0 j hj]

/-- With two variables and two lags they are not: the effect of variable `1` one step later is the weight of the edge from `0_lag2`
(because of the labels of C59). -/
theorem dynWeights_twoLags {g : Graph Str ℝ} (hg : Lagged [['0'], ['1']] 2 g) :
    dynWeights g 1 1 0 = weightIn g (lagName ['0'] 2) (lagName ['0'] 0) ∧ dynWeights g 1 1 1 = weightIn g (lagName ['0'] 2) (lagName ['1'] 0) ∧
    dynWeights g 2 0 0 = weightIn g (lagName ['1'] 1) (lagName ['0'] 0) ∧ dynWeights g 2 0 1 = weightIn g (lagName ['1'] 1) (lagName ['1'] 0) := by
  have hv : ∀ u ∈ ([['0'], ['1']] : List Str), '_' ∉ u := by decide
  have hinter : interNodes g = [lagName ['0'] 1, lagName ['0'] 2, lagName ['1'] 1, lagName ['1'] 2] := by
    refine interNodes_lagged hg hv ?_ ?_ ?_
    · simp only [lagName_eq]
      decide
    · intro x
      constructor
      · intro hx
        simp only [List.mem_cons, List.not_mem_nil, or_false] at hx
        rcases hx with rfl | rfl | rfl | rfl
        · exact ⟨['0'], by simp, 1, by omega, by omega, rfl⟩
        · exact ⟨['0'], by simp, 2, by omega, by omega, rfl⟩
        · exact ⟨['1'], by simp, 1, by omega, by omega, rfl⟩
        · exact ⟨['1'], by simp, 2, by omega, by omega, rfl⟩
      · rintro ⟨u, hu, k, h1, h2, rfl⟩
        have hk : k = 1 ∨ k = 2 := by omega
        simp only [List.mem_cons, List.not_mem_nil, or_false] at hu
        rcases hu with rfl | rfl <;> rcases hk with rfl | rfl <;> simp
    · simp only [lagName_eq]
      decide
  have hintra : intraNodes g = [lagName ['0'] 0, lagName ['1'] 0] := by
    obtain ⟨vs, hperm, hs, hi⟩ := intraNodes_lagged hg hv
    rw [hi]
    refine List.Perm.eq_of_pairwise (le := (· ≤ ·)) (fun a b _ _ => le_antisymm) (hs 0) ?_ (hperm.map _)
    simp only [lagName_eq]
    decide
  simp only [dynWeights, hinter, hintra]
  exact ⟨rfl, rfl, rfl, rfl⟩

end Verif.Recover
