import Verif.Recover.DynStream
import Verif.Dynotears.Moments

/-!
# C138 for data frames
-/

namespace Verif.Recover

open MeasureTheory ProbabilityTheory Filter Verif.Notears Verif.Dynotears Verif.Str

section
variable {T : Type} [DecidableEq T]

/-! ### Specification -/

/-- A data frame with the numeric columns `cols` holds the first `n` observations of a series, one row for each time step. -/
structure Holds (numeric : T → Bool) {d : ℕ} (n : ℕ) (x : ℕ → Fin d → ℝ) (cols : List Str) (df : Transform.Frame Str T ℝ) : Prop where
  columns : df.cols = cols
  types : ∀ t ∈ df.dtypes, numeric t = true
  indexInt : df.indexInt = true
  index : ∃ t₀ : ℤ, df.index = (List.range n).map fun t : ℕ => t₀ + t
  rows : df.rows.length = n
  values : ∀ (t : ℕ) (r : Str → ℝ), df.rows[t]? = some r → ∀ (i : Fin d) (c : Str), cols[(i : ℕ)]? = some c → r c = x t i

/-- The learned graph has exactly the edges of the dynamic equations with the weights `u`, with nearly the same weights, under the names `cols` of the variables. -/
def SameEdgesNamed (cols : List Str) (p : ℕ) (u : ℕ → ℕ → ℕ → ℝ) (ε : ℝ) (g : Verif.Notears.Graph Str ℝ) : Prop :=
  (∀ e ∈ g.edges, ∃ (k i j : ℕ) (a b : Str), k ≤ p ∧ cols[i]? = some a ∧ cols[j]? = some b ∧ e.src = lagName a k ∧ e.dst = lagName b 0 ∧
    u k i j ≠ 0 ∧ |e.weight - u k i j| < ε) ∧
  ∀ (k i j : ℕ) (a b : Str), k ≤ p → cols[i]? = some a → cols[j]? = some b → u k i j ≠ 0 →
    ∃ e ∈ g.edges, e.src = lagName a k ∧ e.dst = lagName b 0

/-- From the data frame `df`, `from_pandas_dynamic` learns the equations with the weights `u` up to `ε`.  `X` and `Xlags` are the arrays that the transformer makes of
`df`; tabu edges, parents and children are given by names, `tabu` are their positions. -/
def LearnsFrame (numeric : T → Bool) (p : ℕ) (cols : List Str) (df : Transform.Frame Str T ℝ) (u : ℕ → ℕ → ℕ → ℝ) (ε δ : ℝ) : Prop :=
  ∃ X Xlags : List (List ℝ), Transform.transform numeric ⟨p, some cols, some false⟩ [.frame df] = .ok (.arrays X Xlags) ∧
  ∀ (minimize : Minimizer ℝ) (fuel : ℕ) (lambdaW lambdaA : ℝ) (a : Verif.Dynotears.Params ℝ Str) (tabu : Verif.Dynotears.Tabu ℕ)
    (g₀ : Verif.Notears.Graph Str ℝ), RespectsBounds minimize → TabuNamed cols a.tabu tabu →
    dynotears minimize fuel lambdaW lambdaA (toData cols.length X) (toData (p * cols.length) Xlags) { a with tabu := tabu } = .ok (g₀, false) →
    a.maxIter ≠ 0 → 0 ≤ lambdaW → 0 ≤ lambdaA →
    lambdaW * absSum cols.length (u 0) + lambdaA * ∑ k ∈ Finset.range p, absSum cols.length (u (k + 1)) ≤ δ →
    NotWorse (problem lambdaW lambdaA (toData cols.length X) (toData (p * cols.length) Xlags)) minimize (bounds tabu cols.length p)
      (splitVec cols.length p u) →
    a.hTol ≤ δ → ε ≤ a.wThreshold →
    (∀ k ≤ p, ∀ i < cols.length, ∀ j < cols.length, u k i j ≠ 0 → a.wThreshold + ε ≤ |u k i j|) →
    ∃ g, dynotearsFrames minimize fuel lambdaW lambdaA numeric [.frame df] p a = .ok g ∧ SameEdgesNamed cols p u ε g

/-! ### The arrays -/

theorem cutPoints_nil (i : ℕ) {l : List ℤ} (h : l.IsChain fun a b => b - a ≤ 1) : Transform.cutPoints i l = [] := by
  induction l generalizing i with
  | nil => rfl
  | cons a l ih =>
    cases l with
    | nil => rfl
    | cons b l =>
      rw [List.isChain_cons_cons] at h
      rw [Transform.cutPoints, if_neg (by omega), ih _ h.2]

theorem cut_whole {α : Type} {index : List ℤ} (h : index.IsChain fun a b => b - a ≤ 1) {values : List α} (hl : values.length = index.length) :
    Transform.cut index values = [values] := by
  unfold Transform.cut
  rw [cutPoints_nil 0 h]
  simp [Transform.slice, ← hl]

theorem steps_chain (t₀ : ℤ) (n : ℕ) : ((List.range n).map fun t : ℕ => t₀ + t).IsChain fun a b => b - a ≤ 1 := by
  rw [List.isChain_map, List.isChain_iff_getElem]
  intro i hi
  simp only [List.getElem_range]
  push_cast
  omega

theorem steps_sorted (t₀ : ℤ) (n : ℕ) : ((List.range n).map fun t : ℕ => t₀ + t).Pairwise (· ≤ ·) := by
  rw [List.pairwise_map]
  refine List.pairwise_le_range.imp fun h => ?_
  omega

/-- What the transformer makes of a data frame with one row for each time step. -/
theorem Holds.transform {numeric : T → Bool} {d n p : ℕ} {x : ℕ → Fin d → ℝ} {cols : List Str} {df : Transform.Frame Str T ℝ}
    (h : Holds numeric (n + p) x cols df) (hd : cols.length = d) (hp : p ≠ 0) :
    ∃ X Xlags : List (List ℝ), Transform.transform numeric ⟨p, some cols, some false⟩ [.frame df] = .ok (.arrays X Xlags) ∧
      X.length = Xlags.length ∧ Windows d p n x (toData d X) (toData (p * d) Xlags) ∧
      ∀ (minimize : Minimizer ℝ) (fuel : ℕ) (lambdaW lambdaA : ℝ) (a : Verif.Dynotears.Params ℝ Str),
        dynotearsFrames minimize fuel lambdaW lambdaA numeric [.frame df] p a =
          fromArrays (problem lambdaW lambdaA) minimize fuel cols p (toData d X) (toData (p * d) Xlags) a := by
  obtain ⟨t₀, hidx⟩ := h.index
  have hgood : ∀ columns : Option (List Str), (columns = none ∨ columns = some cols) → Transform.Good numeric columns [.frame df] := by
    intro columns hc
    refine ⟨df, [], rfl, fun e he => ?_⟩
    rw [List.mem_singleton] at he
    refine ⟨df, he, h.types, rfl, rfl, ?_, h.indexInt, ?_⟩
    · rw [hidx]
      exact steps_sorted t₀ _
    · intro cs hcs c hcc
      rcases hc with hc | hc
      · rw [hc] at hcs
        cases hcs
      · rw [hc] at hcs
        cases hcs
        rw [h.columns]
        exact hcc
  have hcut : Transform.cutAll ([Transform.Entry.frame df].map (Transform.select cols)) = [df.rows.map fun r => cols.map r] := by
    simp only [Transform.cutAll, List.map_cons, List.map_nil, List.flatMap_cons, List.flatMap_nil, List.append_nil, Transform.select]
    apply cut_whole
    · rw [hidx]
      exact steps_chain t₀ _
    · rw [List.length_map, h.rows, hidx, List.length_map, List.length_range]
  obtain ⟨X, Xlags, hc, hlen, hlenX, hzip⟩ := Transform.convert_correct hp (pieces := [df.rows.map fun r => cols.map r]) (by simp)
  have htr : Transform.transform numeric (⟨p, some cols, some false⟩ : Transform.Trans Str) [.frame df] = .ok (.arrays X Xlags) := by
    rw [Transform.transform]
    simp only
    rw [(Transform.checkInput_ok _ _ _).2 (hgood _ (Or.inr rfl))]
    simp only [hcut, hc]
    rw [if_neg (by simp)]
  refine ⟨X, Xlags, htr, hlen.symm ▸ rfl, ?_, ?_⟩
  · have hn : X.length = n := by simpa [h.rows] using hlenX
    have hn' : Xlags.length = n := hlen ▸ hn
    rw [List.flatMap_cons, List.flatMap_nil, List.append_nil] at hzip
    have hrow : ∀ t < n + p, ((df.rows.map fun r => cols.map r).getD t []).length = d ∧
        ∀ i : Fin d, ((df.rows.map fun r => cols.map r).getD t [])[(i : ℕ)]? = some (x t i) := by
      intro t ht
      have ht' : t < df.rows.length := by rw [h.rows]; exact ht
      have hr : df.rows[t]? = some df.rows[t] := List.getElem?_eq_getElem ht'
      rw [List.getD_eq_getElem?_getD, List.getElem?_map, hr]
      simp only [Option.map_some, Option.getD_some, List.length_map]
      refine ⟨hd, fun i => ?_⟩
      have hi : cols[(i : ℕ)]? = some (cols[(i : ℕ)]'(by rw [hd]; exact i.2)) := List.getElem?_eq_getElem _
      rw [List.getElem?_map, hi, Option.map_some, h.values t _ hr i _ hi]
    have hget : ∀ r < n, X[r]? = some ((df.rows.map fun r => cols.map r).getD (r + p) []) ∧
        Xlags[r]? = some ((List.range p).flatMap fun k => (df.rows.map fun r => cols.map r).getD (r + p - (k + 1)) []) := by
      intro r hr
      have hr1 : r < X.length := by omega
      have hr2 : r < Xlags.length := by omega
      have h1 : (X.zip Xlags)[r]? = some (X[r], Xlags[r]) := by
        rw [List.getElem?_zip_eq_some]
        exact ⟨List.getElem?_eq_getElem _, List.getElem?_eq_getElem _⟩
      rw [hzip, Transform.windows, List.getElem?_map, List.getElem?_range (by simp [h.rows]; omega)] at h1
      simp only [Option.map_some, Option.some.injEq, Prod.mk.injEq] at h1
      rw [List.getElem?_eq_getElem hr1, List.getElem?_eq_getElem hr2, ← h1.1, ← h1.2]
      exact ⟨rfl, rfl⟩
    refine ⟨hn, rfl, rfl, fun r hr j => ?_, fun r hr k hk i => ?_⟩
    · simp only [Data.val, toData]
      rw [(hget r hr).1, Option.bind_some, (hrow (r + p) (by omega)).2 j]
      rfl
    · simp only [Data.val, toData]
      rw [(hget r hr).2, Option.bind_some, flatMap_range_get' _ d p (fun k hk => (hrow _ (by omega)).1) k i hk i.2, (hrow _ (by omega)).2 i]
      rfl
  · intro minimize fuel lambdaW lambdaA a
    have hfit := Transform.fit_ok_iff numeric ({ p := p } : Transform.Trans Str) [.frame df] false
    have hf := hfit.1.2 (hgood none (Or.inl rfl))
    have hs := hfit.2.1 df [] rfl hf
    unfold dynotearsFrames fromPandasDynamic
    simp only
    rw [hf, hs, h.columns]
    simp only [htr, hd]

/-! ### Names -/

theorem forall₂_unique {α β : Type} {R : α → β → Prop} (hR : ∀ a b b', R a b → R a b' → b = b') {l : List α} {m m' : List β}
    (h : List.Forall₂ R l m) (h' : List.Forall₂ R l m') : m = m' := by
  induction h generalizing m' with
  | nil => cases h'; rfl
  | cons h1 _ ih =>
    cases h' with
    | cons h2 h3 => rw [hR _ _ _ h1 h2, ih h3]

theorem optionRel_unique {α β : Type} {R : α → β → Prop} (hR : ∀ a b b', R a b → R a b' → b = b') {o : Option α} {m m' : Option β}
    (h : Option.Rel R o m) (h' : Option.Rel R o m') : m = m' := by
  cases h with
  | none => cases h'; rfl
  | some h1 =>
    cases h' with
    | some h2 => rw [hR _ _ _ h1 h2]

theorem tabuNamed_unique {cols : List Str} (hnd : cols.Nodup) {t : Verif.Dynotears.Tabu Str} {t' t'' : Verif.Dynotears.Tabu ℕ} (h : TabuNamed cols t t')
    (h' : TabuNamed cols t t'') : t' = t'' := by
  have hpos : ∀ (i j : ℕ) (c : Str), cols[i]? = some c → cols[j]? = some c → i = j := by
    intro i j c hi hj
    have := (List.getElem?_eq_some_iff.1 hi).1
    exact (List.getElem?_inj this hnd).1 (hi.trans hj.symm)
  have h1 : t'.edges = t''.edges := by
    refine optionRel_unique ?_ h.edges h'.edges
    intro _ _ _ q q'
    refine forall₂_unique ?_ q q'
    rintro e a b h h'
    exact Prod.ext (h.1.trans h'.1.symm) (Prod.ext (hpos _ _ _ h.2.1 h'.2.1) (hpos _ _ _ h.2.2 h'.2.2))
  have h2 : t'.parents = t''.parents := by
    refine optionRel_unique ?_ h.parents h'.parents
    intro _ _ _ q q'
    exact forall₂_unique (fun n a b h h' => hpos a b n h h') q q'
  have h3 : t'.children = t''.children := by
    refine optionRel_unique ?_ h.children h'.children
    intro _ _ _ q q'
    exact forall₂_unique (fun n a b h h' => hpos a b n h h') q q'
  cases t'
  cases t''
  simp only at h1 h2 h3
  rw [h1, h2, h3]

theorem tabuNamed_known {cols : List Str} {t : Verif.Dynotears.Tabu Str} {t' : Verif.Dynotears.Tabu ℕ} (h : TabuNamed cols t t') : TabuKnown cols t := by
  obtain ⟨h1, h2, h3⟩ := h
  refine ⟨fun te hte e he => ?_, fun tp htp n hn => ?_, fun tc htc n hn => ?_⟩
  · rw [hte] at h1
    generalize t'.edges = o at h1
    cases h1 with
    | some h1 =>
      obtain ⟨e', _, -, ha, hb⟩ := forall₂_left h1 he
      exact ⟨List.mem_of_getElem? ha, List.mem_of_getElem? hb⟩
  · rw [htp] at h2
    generalize t'.parents = o at h2
    cases h2 with
    | some h2 =>
      obtain ⟨i, _, ha⟩ := forall₂_left h2 hn
      exact List.mem_of_getElem? ha
  · rw [htc] at h3
    generalize t'.children = o at h3
    cases h3 with
    | some h3 =>
      obtain ⟨i, _, ha⟩ := forall₂_left h3 hn
      exact List.mem_of_getElem? ha

/-- From arrays to data frames. -/
theorem LearnsDyn.frame {numeric : T → Bool} {n p : ℕ} {cols : List Str} (hnd : cols.Nodup) (hp : p ≠ 0) {x : ℕ → Fin cols.length → ℝ}
    {df : Transform.Frame Str T ℝ} (h : Holds numeric (n + p) x cols df) {u : ℕ → ℕ → ℕ → ℝ} {ε δ : ℝ}
    (hL : ∀ X Xlags : Data ℝ, Windows cols.length p n x X Xlags → LearnsDyn cols.length p X Xlags u ε δ) : LearnsFrame numeric p cols df u ε δ := by
  obtain ⟨X, Xlags, h1, -, h2, h3⟩ := h.transform rfl hp
  refine ⟨X, Xlags, h1, fun minimize fuel lambdaW lambdaA a tabu g₀ hm ht hr q1 q2 q3 q4 q5 q6 q7 q8 => ?_⟩
  have hS := hL _ _ h2 minimize fuel lambdaW lambdaA { a with tabu := tabu } g₀ hm hr q1 q2 q3 q4 q5 q6 q7 q8
  obtain ⟨t, ht', -, hok⟩ := (fromArrays_correct (problem lambdaW lambdaA) minimize fuel hnd (X := toData cols.length X)
    (Xlags := toData (p * cols.length) Xlags) rfl rfl a).2 (tabuNamed_known ht)
  obtain rfl := tabuNamed_unique hnd ht ht'
  obtain ⟨g, w, g1, g2, g3⟩ := hok g₀ (by
    unfold fromNumpyDynamic
    unfold dynotears at hr
    rw [hr])
  refine ⟨g, by rw [h3, g2], ?_, ?_⟩
  · intro e he
    obtain ⟨k, i, j, ca, cb, hk, hi, hj, hw, hthr, rfl⟩ := (g3.edges e).1 he
    have hi' := (List.getElem?_eq_some_iff.1 hi).1
    have hj' := (List.getElem?_eq_some_iff.1 hj).1
    obtain ⟨k', hk', i', hi'', j', hj'', e1, e2, hne, hlt⟩ := hS.1 _ ((g1.edges _).2 ⟨k, i, j, natStr i, natStr j, hk, range_map_get.2 ⟨hi', rfl⟩,
      range_map_get.2 ⟨hj', rfl⟩, hw, hthr, rfl⟩)
    obtain ⟨e3, rfl⟩ := lagName_inj e1
    obtain ⟨e4, -⟩ := lagName_inj e2
    have e3 := natStr_inj e3
    have e4 := natStr_inj e4
    subst e3 e4
    exact ⟨k, i, j, ca, cb, hk, hi, hj, rfl, rfl, hne, hlt⟩
  · intro k i j ca cb hk hi hj hne
    have hi' := (List.getElem?_eq_some_iff.1 hi).1
    have hj' := (List.getElem?_eq_some_iff.1 hj).1
    obtain ⟨e, he, e1, e2⟩ := hS.2 k hk i hi' j hj' hne
    obtain ⟨k', i', j', ca', cb', hk', hi'', hj'', hw, hthr, rfl⟩ := (g1.edges e).1 he
    obtain ⟨hi3, rfl⟩ := range_map_get.1 hi''
    obtain ⟨hj3, rfl⟩ := range_map_get.1 hj''
    obtain ⟨e3, rfl⟩ := lagName_inj e1
    obtain ⟨e4, -⟩ := lagName_inj e2
    have e3 := natStr_inj e3
    have e4 := natStr_inj e4
    subst e3 e4
    exact ⟨_, (g3.edges _).2 ⟨k', i', j', ca, cb, hk', hi, hj, hw, hthr, rfl⟩, rfl, rfl⟩

/-- **C138** for `from_pandas_dynamic`: almost surely, it learns the equations behind a time series from all data frames that hold sufficiently long initial parts of it. -/
theorem frame_eventually_learned {cols : List Str} (hnd : cols.Nodup) (hne : cols ≠ []) {p : ℕ} (hp : p ≠ 0) {u : ℕ → ℕ → ℕ → ℝ}
    (hu : AcyclicWeights cols.length (u 0)) {v ε : ℝ} (hv : 0 < v) (hε : 0 < ε) (numeric : T → Bool) :
    ∃ δ > 0, ∀ (Ω : Type) (_ : MeasurableSpace Ω) (P : Measure Ω) (C : ℝ) (x e : ℕ → Ω → Fin cols.length → ℝ), IsProbabilityMeasure P →
      (∀ ω, Follows cols.length p u (x · ω) (e · ω)) → Innovations P cols.length p v C x e →
      ∀ᵐ ω ∂P, ∀ᶠ n in atTop, ∀ df : Transform.Frame Str T ℝ, Holds numeric n (x · ω) cols df → LearnsFrame numeric p cols df u ε δ := by
  obtain ⟨δ, hδ, h⟩ := series_eventually_learned (d := cols.length) (p := p) (fun h0 => hne (List.length_eq_zero_iff.1 h0)) hu hv hε
  refine ⟨δ, hδ, fun Ω _ P C x e hP hF hI => ?_⟩
  filter_upwards [h Ω _ P C x e hP hF hI] with ω hω
  filter_upwards [(tendsto_sub_atTop_nat p).eventually hω, eventually_ge_atTop p] with n hn hnp df hdf
  refine LearnsDyn.frame hnd hp (n := n - p) (x := (x · ω)) ?_ hn
  rwa [Nat.sub_add_cancel hnp]

/-- **C138** for `from_pandas_dynamic`: the probability that the equations are not learned from a data frame with the first `n + p` observations is at most `c / n`. -/
theorem frame_learned {cols : List Str} (hnd : cols.Nodup) (hne : cols ≠ []) {p : ℕ} (hp : p ≠ 0) {u : ℕ → ℕ → ℕ → ℝ}
    (hu : AcyclicWeights cols.length (u 0)) {v C ε : ℝ} (hv : 0 < v) (hε : 0 < ε) (numeric : T → Bool) :
    ∃ δ > 0, ∃ c : ℝ, ∀ (Ω : Type) (_ : MeasurableSpace Ω) (P : Measure Ω) (x e : ℕ → Ω → Fin cols.length → ℝ) (n : ℕ), IsProbabilityMeasure P →
      (∀ ω, Follows cols.length p u (x · ω) (e · ω)) → Innovations P cols.length p v C x e → 0 < n →
      P {ω | ¬ ∀ df : Transform.Frame Str T ℝ, Holds numeric (n + p) (x · ω) cols df → LearnsFrame numeric p cols df u ε δ} ≤ ENNReal.ofReal (c / n) := by
  obtain ⟨δ, hδ, c, h⟩ := series_learned (d := cols.length) (p := p) (C := C) (fun h0 => hne (List.length_eq_zero_iff.1 h0)) hu hv hε
  refine ⟨δ, hδ, c, fun Ω _ P x e n hP hF hI hn => (measure_mono ?_).trans (h Ω _ P x e n hP hF hI hn)⟩
  intro ω hω hall
  exact hω fun df hdf => LearnsDyn.frame hnd hp (x := (x · ω)) hdf hall

end

end Verif.Recover
