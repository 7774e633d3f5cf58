import Verif.Generators.SemLemmas
import Verif.Generators.Binary

/-!
# The loop over the nodes, and the values of a variable
-/

namespace Verif.Generators

open Verif.Mapper Verif.Str

section
variable {N : Type} [DecidableEq N] {n : ℕ}

/-! ### Values of a variable -/

theorem sum_indicator {α : Type} (l : List α) (p : α → Prop) [DecidablePred p] :
    (l.map fun r => if p r then (1 : ℝ) else 0).sum = (l.filter fun r => p r).length := by
  induction l with
  | nil => simp
  | cons a l ih =>
    rw [List.map_cons, List.sum_cons, ih, List.filter_cons]
    by_cases h : p a
    · simp [h]; ring
    · simp [h]

theorem colMean_labels (latent : Col n) (t : ℝ) :
    colMean (labelsAbove latent t) = ((List.finRange n).filter fun r => t < latent r).length / (n : ℝ) := by
  unfold colMean labelsAbove
  rw [List.ofFn_eq_map, sum_indicator]

theorem binaryLabels_threshold (latent : Col n) : ∃ threshold, binaryLabels latent = labelsAbove latent threshold ∧
    (5 / 100 * (n : ℝ) ≤ ((List.finRange n).filter fun r => 0 < latent r).length →
      ((List.finRange n).filter fun r => 0 < latent r).length ≤ 95 / 100 * (n : ℝ) → threshold = 0) := by
  rcases Nat.eq_zero_or_pos n with rfl | hn
  · exact ⟨0, funext fun r => r.elim0, fun _ _ => rfl⟩
  have hn' : (0 : ℝ) < n := by exact_mod_cast hn
  unfold binaryLabels
  simp only [colMean_labels]
  split
  · rename_i h
    refine ⟨_, rfl, fun h1 => ?_⟩
    rw [div_lt_iff₀ hn'] at h
    exact absurd h1 (not_le.2 h)
  · split
    · rename_i h
      refine ⟨_, rfl, fun _ h1 => ?_⟩
      rw [lt_div_iff₀ hn'] at h
      norm_num at h h1
      exact absurd h1 (not_le.2 h)
    · exact ⟨0, rfl, fun _ _ => rfl⟩

/-- If less than 5% of the latent values are positive, at least 95% get the label 1 (not counting one). -/
theorem binaryLabels_few {latent : Col n} (hinj : Function.Injective latent) (hn : 2 ≤ n)
    (h : ((List.finRange n).filter fun r => 0 < latent r).length < 5 / 100 * (n : ℝ)) :
    95 / 100 * ((n : ℝ) - 1) ≤ ones (binaryLabels latent) := by
  have hn' : (2 : ℝ) ≤ n := by exact_mod_cast hn
  unfold binaryLabels
  simp only [colMean_labels]
  rw [if_pos (by rw [div_lt_iff₀ (by linarith)]; exact h)]
  obtain ⟨h2, h3⟩ := ones_quantile (q := 5 / 100) hinj hn (by norm_num) (by norm_num)
  rw [h2, Nat.cast_sub h3.le]
  have := Nat.floor_le (show 0 ≤ ((n : ℝ) - 1) * (5 / 100) by nlinarith)
  push_cast
  linarith

/-- If more than 95% of the latent values are positive, at most 5% get the label 1 (and one more). -/
theorem binaryLabels_many {latent : Col n} (hinj : Function.Injective latent) (hn : 2 ≤ n)
    (h : 95 / 100 * (n : ℝ) < ((List.finRange n).filter fun r => 0 < latent r).length) :
    (ones (binaryLabels latent) : ℝ) ≤ 5 / 100 * ((n : ℝ) - 1) + 1 := by
  have hn' : (2 : ℝ) ≤ n := by exact_mod_cast hn
  have h0 : (0 : ℝ) < n := by linarith
  unfold binaryLabels
  simp only [colMean_labels]
  rw [if_neg (by rw [not_lt, le_div_iff₀ h0]; nlinarith), if_pos (by rw [lt_div_iff₀ h0]; linarith)]
  obtain ⟨h2, h3⟩ := ones_quantile (q := 1 - 5 / 100) hinj hn (by norm_num) (by norm_num)
  rw [h2, Nat.cast_sub h3.le]
  have := Nat.lt_floor_add_one (((n : ℝ) - 1) * (1 - 5 / 100))
  push_cast
  linarith

theorem argmax_spec {l : List ℝ} (hl : l ≠ []) : ∃ h : argmax l < l.length, ∀ b ∈ l, b ≤ l[argmax l] := by
  have hex : ∃ a ∈ l, decide (∀ b ∈ l, b ≤ a) = true := by
    obtain ⟨a, ha, hm⟩ := Finset.exists_max_image l.toFinset id (by
      obtain ⟨a, ha⟩ := List.exists_mem_of_ne_nil l hl
      exact ⟨a, List.mem_toFinset.2 ha⟩)
    exact ⟨a, List.mem_toFinset.1 ha, by
      rw [decide_eq_true_eq]
      exact fun b hb => hm b (List.mem_toFinset.2 hb)⟩
  have hlt : argmax l < l.length := List.findIdx_lt_length_of_exists hex
  refine ⟨hlt, ?_⟩
  have := List.findIdx_getElem (w := hlt)
  rwa [decide_eq_true_eq] at this

theorem expRelu_nonneg (x : ℝ) : 0 ≤ expRelu x := by
  unfold expRelu
  split
  · exact (Real.exp_pos _).le
  · rename_i h; exact not_lt.1 h

/-- The columns that were written are those specified. -/
theorem realises_of_cols {fmt : N → ℕ → N} {g : SemGraph N} {D : SemDraws N n} (hD : D.Uniform) {dist : Distributions}
    {noiseStd : ℝ} {v : N} {root : Bool} (hroot : root = decide (g.preds v = [])) {mean : ℕ → Col n} {meanF val : N → Col n}
    {t : VarType} (ht : ∀ k, t = .categorical k → k ≠ 0)
    (hmean : ∀ c f, (t.features fmt v)[c]? = some f → mean c = meanF f)
    (h : (t.features fmt v).map val = pureCols D dist noiseStd v root mean t) :
    Realises fmt g D noiseStd dist v meanF val t := by
  have hnoise : ∀ d c r, drawNoise D d noiseStd root v c r = noiseOf g D noiseStd d v c r := by
    intro d c r
    unfold drawNoise noiseOf
    rw [hroot]
    simp only [decide_eq_true_eq]
  cases t with
  | continuous =>
    have h0 := hmean 0 v rfl
    simp only [VarType.features, List.map_cons, List.map_nil, pureCols, List.cons.injEq, and_true, hnoise, h0] at h
    intro r
    rw [h]
  | binary =>
    have h0 := hmean 0 v rfl
    simp only [VarType.features, List.map_cons, List.map_nil, pureCols, List.cons.injEq, and_true, hnoise, h0] at h
    obtain ⟨t, h1, h2⟩ := binaryLabels_threshold fun r => meanF v r + noiseOf g D noiseStd dist.binary v 0 r
    refine ⟨t, fun r => ?_, h2, fun hi hn => ?_⟩
    · rw [h, h1]
      rfl
    · rw [h]
      exact ⟨(binaryLabels_balanced hi hn).1, (binaryLabels_balanced hi hn).2, binaryLabels_few hi hn, binaryLabels_many hi hn⟩
  | count =>
    have h0 := hmean 0 v rfl
    simp only [VarType.features, List.map_cons, List.map_nil, pureCols, List.cons.injEq, and_true, h0, hroot,
      decide_eq_true_eq] at h
    obtain ⟨cnt, hc, hspec⟩ := samplePoisson_correct (maxCount := 5000) (fuel := 5001)
      (rate := fun r => expRelu (if g.preds v = [] then meanF v r + D.eta v r else meanF v r))
      (fun r => expRelu_nonneg _) (fun r => hD v r) le_rfl
    rw [hc, Option.getD_some] at h
    refine ⟨fun r => if D.zif v r < dist.count then 0 else cnt r, fun r => ⟨?_, ?_⟩⟩
    · rw [h]
      dsimp only
      split <;> simp
    · dsimp only
      by_cases hz : D.zif v r < dist.count
      · rw [if_pos hz, if_pos hz]
      · rw [if_neg hz, if_neg hz]
        exact hspec r
  | categorical k =>
    simp only [VarType.features, pureCols, hnoise, List.map_map] at h
    have hk := ht k rfl
    have hm : ∀ c < k, mean c = meanF (fmt v c) := fun c hc => hmean c _ (by simp [VarType.features, hc])
    have hval : ∀ i < k, val (fmt v i) = fun r => if argmax ((List.range k).map fun c =>
        mean c r + noiseOf g D noiseStd dist.categorical v c r) = i then 1 else 0 := by
      intro i hi
      exact List.map_inj_left.1 h i (List.mem_range.2 hi)
    have hl : ∀ r, (List.range k).map (fun c => mean c r + noiseOf g D noiseStd dist.categorical v c r) =
        (List.range k).map fun c => meanF (fmt v c) r + noiseOf g D noiseStd dist.categorical v c r := by
      intro r
      refine List.map_congr_left fun c hc => ?_
      rw [hm c (List.mem_range.1 hc)]
    refine ⟨fun r => argmax ((List.range k).map fun c => meanF (fmt v c) r + noiseOf g D noiseStd dist.categorical v c r),
      fun r => ?_⟩
    obtain ⟨hlt, hmax⟩ := argmax_spec (l := (List.range k).map fun c =>
      meanF (fmt v c) r + noiseOf g D noiseStd dist.categorical v c r) (by simpa using hk)
    refine ⟨by simpa using hlt, fun c hc => ?_, fun c hc => ?_⟩
    · have := hmax _ (List.mem_map.2 ⟨c, List.mem_range.2 hc, rfl⟩)
      simpa using this
    · rw [hval c hc]
      dsimp only
      rw [hl]
      simp only [eq_comm]

/-- What is specified for a type implies that the values are values of the type. -/
theorem Realises.inType {fmt : N → ℕ → N} {g : SemGraph N} {D : SemDraws N n} {dist : Distributions}
    {noiseStd : ℝ} {v : N} {meanF val : N → Col n} {t : VarType} (h : Realises fmt g D noiseStd dist v meanF val t) :
    InType fmt v val t := by
  cases t with
  | continuous => trivial
  | binary =>
    obtain ⟨t, ht, -⟩ := h
    intro r
    rw [ht r]
    split
    · exact Or.inr rfl
    · exact Or.inl rfl
  | count =>
    obtain ⟨cnt, hc⟩ := h
    exact fun r => ⟨cnt r, (hc r).1⟩
  | categorical k =>
    obtain ⟨choice, hc⟩ := h
    intro r
    obtain ⟨h1, -, h2⟩ := hc r
    refine ⟨choice r, h1, by rw [h2 _ h1, if_pos rfl], fun c hc' hne => by rw [h2 c hc', if_neg hne]⟩

/-! ### The loop -/

/-- The indices of the features of the parents. -/
def parentsIdx (fmt : N → ℕ → N) (ty : N → VarType) (g : SemGraph N) (m : Mapper N) (v : N) : List ℕ :=
  (g.preds v).flatMap (idxOfVar fmt ty m)

/-- The columns written for `v`, if nothing is raised. -/
noncomputable def stepCols (fmt : N → ℕ → N) (ty : N → VarType) (g : SemGraph N) (D : SemDraws N n) (dist : Distributions) (noiseStd : ℝ)
    (m : Mapper N) (mean : (ℕ → Col n) → N → List ℕ → List ℕ → ℕ → Col n) (x : ℕ → Col n) (v : N) : List (Col n) :=
  pureCols D dist noiseStd v (decide ((parentsIdx fmt ty g m v).length = 0))
    (mean x v (parentsIdx fmt ty g m v) (idxOfVar fmt ty m v)) (ty v)

omit [DecidableEq N] in
theorem mem_pairs_of_edge {g : SemGraph N} {u v : N} {w : Option ℝ} (h : (u, v, w) ∈ g.edges) : (u, v) ∈ g.pairs :=
  List.mem_map.2 ⟨_, h, rfl⟩

theorem mem_preds {g : SemGraph N} {u v : N} : u ∈ g.preds v ↔ (u, v) ∈ g.pairs := by
  unfold SemGraph.preds SemGraph.pairs
  rw [List.mem_map, List.mem_map]
  constructor
  · rintro ⟨⟨a, b, w⟩, he, rfl⟩
    obtain ⟨h1, h2⟩ := List.mem_filter.1 he
    simp only [decide_eq_true_eq] at h2
    exact ⟨_, h1, by rw [h2]⟩
  · rintro ⟨⟨a, b, w⟩, he, h⟩
    obtain ⟨rfl, rfl⟩ := Prod.mk.inj h
    exact ⟨_, List.mem_filter.2 ⟨he, by simp⟩, rfl⟩

variable {fmt : N → ℕ → N} {ty : N → VarType} {g : SemGraph N} {m : Mapper N} {dist : Distributions}

theorem semStep_ok (hg : g.WF) (F : MapperFacts fmt g.nodes ty m) (D : SemDraws N n) (noiseStd : ℝ)
    (mean : (ℕ → Col n) → N → List ℕ → List ℕ → ℕ → Col n) (x : ℕ → Col n) {v : N} (hv : v ∈ g.nodes)
    (h : ValidFor dist (ty v)) : semStep g D dist noiseStd m mean x v =
      .ok (writeCols x (idxOfVar fmt ty m v) (stepCols fmt ty g D dist noiseStd m mean x v)) := by
  unfold semStep
  rw [F.indices v hv]
  simp only
  rw [F.list _ fun u hu => (hg.ends _ (mem_preds.1 hu)).1]
  simp only
  rw [sampleVar_ok F D noiseStd hv _ _ h]
  rfl

theorem semStep_error (hg : g.WF) (F : MapperFacts fmt g.nodes ty m) (D : SemDraws N n) (noiseStd : ℝ)
    (mean : (ℕ → Col n) → N → List ℕ → List ℕ → ℕ → Col n) (x : ℕ → Col n) {v : N} (hv : v ∈ g.nodes)
    (h : ¬ ValidFor dist (ty v)) : semStep g D dist noiseStd m mean x v = .error .valueError := by
  unfold semStep
  rw [F.indices v hv]
  simp only
  rw [F.list _ fun u hu => (hg.ends _ (mem_preds.1 hu)).1]
  simp only
  rw [sampleVar_error F D noiseStd hv _ _ _ h]

theorem semLoop_ok (hg : g.WF) (F : MapperFacts fmt g.nodes ty m) (D : SemDraws N n) (noiseStd : ℝ)
    (mean : (ℕ → Col n) → N → List ℕ → List ℕ → ℕ → Col n) {order : List N} (ho : ∀ v ∈ order, v ∈ g.nodes)
    (h : ∀ v ∈ order, ValidFor dist (ty v)) (x : ℕ → Col n) : semLoop (semStep g D dist noiseStd m mean) order x =
      .ok (blockAll (idxOfVar fmt ty m) (stepCols fmt ty g D dist noiseStd m mean) order x) := by
  induction order generalizing x with
  | nil => rfl
  | cons v order ih =>
    rw [semLoop, semStep_ok hg F D noiseStd mean x (ho v List.mem_cons_self) (h v List.mem_cons_self)]
    exact ih (fun u hu => ho u (List.mem_cons_of_mem _ hu)) (fun u hu => h u (List.mem_cons_of_mem _ hu)) _

theorem semLoop_error (hg : g.WF) (F : MapperFacts fmt g.nodes ty m) (D : SemDraws N n) (noiseStd : ℝ)
    (mean : (ℕ → Col n) → N → List ℕ → List ℕ → ℕ → Col n) {order : List N} (ho : ∀ v ∈ order, v ∈ g.nodes)
    (h : ¬ ∀ v ∈ order, ValidFor dist (ty v)) (x : ℕ → Col n) :
    semLoop (semStep g D dist noiseStd m mean) order x = .error .valueError := by
  induction order generalizing x with
  | nil => exact absurd (by simp) h
  | cons v order ih =>
    rw [semLoop]
    by_cases hv : ValidFor dist (ty v)
    · rw [semStep_ok hg F D noiseStd mean x (ho v List.mem_cons_self) hv]
      refine ih (fun u hu => ho u (List.mem_cons_of_mem _ hu)) (fun hc => h ?_) _
      intro u hu
      rcases List.mem_cons.1 hu with rfl | hu
      · exact hv
      · exact hc u hu
    · rw [semStep_error hg F D noiseStd mean x (ho v List.mem_cons_self) hv]

theorem mem_features (F : MapperFacts fmt g.nodes ty m) {f : N} :
    f ∈ m.featureList ↔ ∃ v ∈ g.nodes, f ∈ (ty v).features fmt v := by
  rw [← F.features.mem_iff, List.mem_flatMap]

theorem mem_idxOfVar {v : N} {i : ℕ} :
    i ∈ idxOfVar fmt ty m v ↔ ∃ f ∈ (ty v).features fmt v, m.featureList.idxOf f = i := List.mem_map

/-- What a mean may depend on. -/
def MeanDep (fmt : N → ℕ → N) (ty : N → VarType) (g : SemGraph N) (m : Mapper N) (K : ℕ → Prop)
    (mean : (ℕ → Col n) → N → List ℕ → List ℕ → ℕ → Col n) : Prop :=
  ∀ v ∈ g.nodes, ∀ x y : ℕ → Col n, (∀ i ∈ parentsIdx fmt ty g m v, x i = y i) → (∀ i, K i → x i = y i) →
    mean x v (parentsIdx fmt ty g m v) (idxOfVar fmt ty m v) = mean y v (parentsIdx fmt ty g m v) (idxOfVar fmt ty m v)

theorem sem_blocks (hg : g.WF) (F : MapperFacts fmt g.nodes ty m) (D : SemDraws N n) (noiseStd : ℝ)
    {mean : (ℕ → Col n) → N → List ℕ → List ℕ → ℕ → Col n} {K : ℕ → Prop} (hK : ∀ i, K i → nFeatures m ≤ i)
    (hmean : MeanDep fmt ty g m K mean) :
    Blocks g.nodes g.preds K (idxOfVar fmt ty m) (stepCols fmt ty g D dist noiseStd m mean) := by
  have hnd : (g.nodes.flatMap fun v => (ty v).features fmt v).Nodup := F.features.nodup_iff.2 F.nodup
  rw [List.nodup_flatMap] at hnd
  have hinj : ∀ f f', f ∈ m.featureList → m.featureList.idxOf f = m.featureList.idxOf f' → f = f' := by
    intro f f' hf h
    exact (List.idxOf_inj hf).1 h
  refine ⟨?_, ?_, ?_, ?_, ?_, ?_⟩
  · intro i hi u hu hiu
    obtain ⟨f, hf, rfl⟩ := mem_idxOfVar.1 hiu
    have h1 := List.idxOf_lt_length_of_mem ((mem_features F).2 ⟨u, hu, hf⟩)
    have h2 := hK _ hi
    unfold nFeatures at h2
    omega
  · intro u hu v hv huv i hi hi'
    obtain ⟨f, hf, rfl⟩ := mem_idxOfVar.1 hi
    obtain ⟨f', hf', h⟩ := mem_idxOfVar.1 hi'
    have := hinj f f' ((mem_features F).2 ⟨u, hu, hf⟩) h.symm
    subst this
    have hp : ∀ a ∈ g.nodes, ∀ b ∈ g.nodes, a ≠ b → List.Disjoint ((ty a).features fmt a) ((ty b).features fmt b) := by
      intro a ha b hb hab
      haveI : Std.Symm (Function.onFun List.Disjoint fun v => (ty v).features fmt v) := ⟨fun _ _ h => List.Disjoint.symm h⟩
      exact hnd.2.forall ha hb hab
    exact hp u hu v hv huv hf hf'
  · intro v hv
    unfold idxOfVar
    refine (hnd.1 v hv).map_on ?_
    intro a ha b hb h
    exact hinj a b ((mem_features F).2 ⟨v, hv, ha⟩) h
  · intro x v hv
    rw [idxOfVar_length, stepCols, pureCols_length fmt]
  · intro v hv u hu
    exact (hg.ends _ (mem_preds.1 hu)).1
  · intro v hv x y h1 h2
    unfold stepCols
    rw [hmean v hv x y]
    · intro i hi
      obtain ⟨u, hu, hi⟩ := List.mem_flatMap.1 hi
      exact h1 u hu i hi
    · exact h2

end

end Verif.Generators
