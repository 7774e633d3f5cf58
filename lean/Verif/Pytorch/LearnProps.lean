import Verif.Pytorch.Learn

/-!
# What `from_numpy` of the PyTorch version returns (C42, C61, C62, C78)
-/

namespace Verif.Pytorch

open Verif.Notears (Tabu Minimizer InBox RespectsBounds Permitted ofMatrix mem_ofMatrix)

theorem permitted_iff {N : Type} (t : Tabu N) (u v : N) :
    Permitted t u v ↔ u ≠ v ∧ ¬ InOpt (u, v) t.edges ∧ ¬ InOpt u t.parents ∧ ¬ InOpt v t.children := by
  unfold Permitted InOpt
  constructor
  · rintro ⟨h1, h2, h3, h4⟩
    exact ⟨h1, fun ⟨x, hx, hm⟩ => h2 x hx hm, fun ⟨x, hx, hm⟩ => h3 x hx hm, fun ⟨x, hx, hm⟩ => h4 x hx hm⟩
  · rintro ⟨h1, h2, h3, h4⟩
    exact ⟨h1, fun x hx hm => h2 ⟨x, hx, hm⟩, fun x hx hm => h3 ⟨x, hx, hm⟩, fun x hx hm => h4 ⟨x, hx, hm⟩⟩

/-- **C60**: an edge between two columns is permitted after the preprocessing exactly if the user permits the edge between their
variables. -/
theorem permitted_expanded {X : Frame} {schema : Option (List (ℕ × Alias))} {t : Tabu ℕ} {p : Prep} (hwf : X.WF)
    (hd : SchemaDict schema) (ht : TabuBelow X.cols t) (h : prepareChecked X schema t = .ok p) {e f : Enc} (he : e ∈ p.encs)
    (hf : f ∈ p.encs) {a b : ℕ} (ha : a ∈ e.cols) (hb : b ∈ f.cols) :
    Permitted p.tabu a b ↔ Permitted t e.idx f.idx := by
  have hl := prepare_isLayout hwf hd h
  obtain ⟨h1, h2, h3⟩ := tabu_expanded X schema t p hwf hd ht h
  rw [permitted_iff, permitted_iff, h2 e he a ha, h3 f hf b hb]
  constructor
  · rintro ⟨hab, hE, hP, hC⟩
    rw [h1 e he f hf a ha b hb hab, not_or] at hE
    exact ⟨hE.2, hE.1, hP, hC⟩
  · rintro ⟨hne, hE, hP, hC⟩
    have hab : a ≠ b := by
      rintro rfl
      exact hne (by rw [hl.owner_unique he hf ha hb])
    refine ⟨hab, ?_, hP, hC⟩
    rw [h1 e he f hf a ha b hb hab, not_or]
    exact ⟨hE, hne⟩

/-! ### How the result comes about -/

theorem fromNumpy_ok {minimize : Minimizer ℝ} {init : ℕ → ℝ} {fuel : ℕ} {X : Frame} {x : Args ℕ} {g : Learned ℕ}
    (h : fromNumpy minimize init fuel X x = .ok g) :
    ∃ p s, prepareChecked X x.schema x.tabu = .ok p ∧ (archOf x p.data.cols).valid = true ∧
      fit (torchProblem (archOf x p.data.cols) p.encs (p.data.rows.map realRow) x.lasso x.ridge) minimize
        (boundsOf (archOf x p.data.cols) p.tabu) (initParams (archOf x p.data.cols) init) x.maxIter fuel = some s ∧
      g = buildGraph X.cols (archOf x p.data.cols) p.encs (p.data.rows.map realRow) x.wThreshold s.params s.warned s.rho := by
  unfold fromNumpy at h
  cases hp : prepareChecked X x.schema x.tabu with
  | error e => rw [hp] at h; cases h
  | ok p =>
    rw [hp] at h
    simp only at h
    split_ifs at h with h1 h2
    split at h
    · cases h
    · rename_i s hs
      cases h
      exact ⟨p, s, rfl, by simpa using h1, hs, rfl⟩

theorem fromNumpy_eq {minimize : Minimizer ℝ} {init : ℕ → ℝ} {fuel : ℕ} {X : Frame} {x : Args ℕ} {p : Prep} {s : FitSt ℝ}
    (hp : prepareChecked X x.schema x.tabu = .ok p) (hv : (archOf x p.data.cols).valid = true) (hr : lossRaises p.encs = false)
    (hs : fit (torchProblem (archOf x p.data.cols) p.encs (p.data.rows.map realRow) x.lasso x.ridge) minimize
      (boundsOf (archOf x p.data.cols) p.tabu) (initParams (archOf x p.data.cols) init) x.maxIter fuel = some s) :
    fromNumpy minimize init fuel X x =
      .ok (buildGraph X.cols (archOf x p.data.cols) p.encs (p.data.rows.map realRow) x.wThreshold s.params s.warned s.rho) := by
  unfold fromNumpy
  rw [hp]
  simp [hv, hr, hs]

theorem archOf_d {N : Type} (x : Args N) (d : ℕ) : (archOf x d).d = d := rfl

theorem initParams_inBox (a : Arch) (init : ℕ → ℝ) (t : Tabu ℕ) : InBox (boundsOf a t) (initParams a init) := by
  obtain ⟨hl, -, hfree⟩ := bounds_only_excluded a t
  have hlen : (initParams a init).length = a.sizes.sum := by simp [initParams]
  unfold InBox
  rw [List.forall₂_iff_get]
  refine ⟨by rw [hl, hlen], ?_⟩
  intro k h1 h2
  rw [List.get_eq_getElem, List.get_eq_getElem]
  by_cases hk : k < a.d * a.m1 * a.d
  · have hz : (initParams a init)[k]'(by simpa using h2) = 0 := by
      simp only [initParams, List.getElem_map, List.getElem_range]
      rw [if_pos]; omega
    have hb : (boundsOf a t)[k] = (some 0, some 0) ∨ (boundsOf a t)[k] = (none, none) := by
      have hmem : (boundsOf a t)[k] ∈ layerBounds t a.d a.m1 := by
        have : (boundsOf a t)[k] = (layerBounds t a.d a.m1)[k]'(by rw [layerBounds_length]; exact hk) := by
          simp only [boundsOf, flatBounds, ← a.m1_eq]
          rw [List.getElem_append_left]
        rw [this]; exact List.getElem_mem _
      unfold layerBounds at hmem
      simp only [List.mem_flatMap, List.mem_map] at hmem
      obtain ⟨j, -, _, -, i, -, hij⟩ := hmem
      rw [← hij]
      unfold Notears.bound
      split_ifs <;> simp
    rw [hz]
    rcases hb with hb | hb <;> rw [hb] <;> simp
  · have := hfree k (by omega) (by rw [← hl]; exact h1)
    rw [List.getElem?_eq_getElem h1, Option.some.injEq] at this
    rw [this]
    simp

theorem initParams_zero (a : Arch) (init : ℕ → ℝ) {k : ℕ} (hk : k < a.d * a.m1 * a.d) : (initParams a init).getD k 0 = 0 := by
  unfold initParams
  rw [List.getD_eq_getElem?_getD, List.getElem?_map]
  by_cases h : k < a.sizes.sum
  · rw [List.getElem?_range h, Option.map_some, Option.getD_some, if_pos (by omega)]
  · rw [List.getElem?_eq_none (by simpa using h)]; rfl

theorem adjacency_nonneg (a : Arch) (n : Net) (rows : List (ℕ → ℝ)) (i j : ℕ) : 0 ≤ adjacency a n rows i j := by
  unfold adjacency
  split_ifs
  · exact abs_nonneg _
  · refine div_nonneg (List.sum_nonneg ?_) (by positivity)
    intro y hy
    obtain ⟨x, -, rfl⟩ := List.mem_map.1 hy
    exact abs_nonneg _

theorem meanEffect_le (a : Arch) (n : Net) (rows : List (ℕ → ℝ)) (i j : ℕ) : |meanEffect a n rows i j| ≤ adjacency a n rows i j := by
  unfold adjacency meanEffect
  split_ifs
  · exact le_refl _
  · rw [abs_div, abs_of_nonneg (by positivity : (0 : ℝ) ≤ rows.length)]
    refine div_le_div_of_nonneg_right ?_ (by positivity)
    induction rows with
    | nil => simp
    | cons x rows ih =>
      simp only [List.map_cons, List.sum_cons]
      exact (abs_add_le _ _).trans (by gcongr)

/-- The edges of the result. -/
theorem mem_buildGraph {dOrig : ℕ} {a : Arch} {es : List Enc} {rows : List (ℕ → ℝ)} {thr : Option ℝ} {w : List ℝ} {warned : Bool}
    {rho : ℝ} {e : LEdge ℕ} : e ∈ (buildGraph dOrig a es rows thr w warned rho).edges ↔
      e.src < a.d ∧ e.dst < a.d ∧ e.weight = adjacency a (a.net w) rows e.src e.dst ∧ e.weight ≠ 0 ∧
        (∀ t, thr = some t → t ≤ e.weight) ∧ e.meanEffect = meanEffect a (a.net w) rows e.src e.dst ∧ e.origin = "learned" := by
  have hcut : ∀ e' : Notears.Edge ℕ ℝ, 0 ≤ e'.weight → ∀ l, e' ∈ cutEdges thr l ↔ e' ∈ l ∧ ∀ t, thr = some t → t ≤ e'.weight := by
    intro e' h0 l
    unfold cutEdges
    cases thr with
    | none => simp
    | some t =>
      simp only
      split_ifs with ht
      · simp [List.mem_filter, abs_of_nonneg h0]
      · simp only [Option.some.injEq, forall_eq', iff_self_and]
        intro _
        rw [not_not] at ht
        rw [ht]; exact h0
  simp only [buildGraph, List.mem_map]
  constructor
  · rintro ⟨e', he', rfl⟩
    have hm : e' ∈ (ofMatrix a.d (adjacency a (a.net w) rows)).edges := by
      unfold cutEdges at he'
      cases thr with
      | none => exact he'
      | some t =>
        simp only at he'
        split_ifs at he'
        · exact (List.mem_filter.1 he').1
        · exact he'
    obtain ⟨h1, h2, h3, h4, -⟩ := mem_ofMatrix.1 hm
    have h0 : 0 ≤ e'.weight := by rw [h4]; exact adjacency_nonneg _ _ _ _ _
    exact ⟨h1, h2, h4, by rw [h4]; exact h3, ((hcut e' h0 _).1 he').2, rfl, rfl⟩
  · rintro ⟨h1, h2, h3, h4, h5, h6, h7⟩
    refine ⟨⟨e.src, e.dst, e.weight, "unknown"⟩, ?_, ?_⟩
    · rw [hcut _ (by simp only [h3]; exact adjacency_nonneg _ _ _ _ _)]
      exact ⟨mem_ofMatrix.2 ⟨h1, h2, by rw [← h3]; exact h4, h3, rfl⟩, h5⟩
    · simp only [← h6]
      obtain ⟨s, d, wt, m, o⟩ := e
      simp only [LEdge.mk.injEq, true_and] at h7 ⊢
      exact h7.symm

/-! ### Termination and errors -/

/-- **C42**: `from_numpy` ends, for every behaviour of the optimiser. It raises `ValueError` for unusable data, `ZeroDivisionError` if
a hidden layer other than the first has no units, `IndexError` if an ordinal variable has a single value, and nothing else. -/
theorem fromNumpy_total (minimize : Minimizer ℝ) (init : ℕ → ℝ) {fuel : ℕ} (hfuel : 17 ≤ fuel) (X : Frame) (x : Args ℕ)
    (hwf : X.WF) (hd : SchemaDict x.schema) :
    (∀ e, prepareChecked X x.schema x.tabu = .error e → fromNumpy minimize init fuel X x = .error .valueError) ∧
    (∀ p, prepareChecked X x.schema x.tabu = .ok p →
      ((archOf x p.data.cols).valid = false → fromNumpy minimize init fuel X x = .error .zeroDivision) ∧
      ((archOf x p.data.cols).valid = true → x.maxIter ≠ 0 → lossRaises p.encs = true →
        fromNumpy minimize init fuel X x = .error .indexError) ∧
      ((archOf x p.data.cols).valid = true → (x.maxIter = 0 ∨ lossRaises p.encs = false) →
        ∃ g, fromNumpy minimize init fuel X x = .ok g)) := by
  refine ⟨?_, ?_⟩
  · intro e he
    have := (prepare_total X x.schema x.tabu hwf hd).2 e he
    unfold fromNumpy
    rw [he, this]
  · intro p hp
    refine ⟨?_, ?_, ?_⟩
    · intro hv
      unfold fromNumpy
      rw [hp]
      simp [hv]
    · intro hv hm hr
      unfold fromNumpy
      rw [hp]
      simp [hv, hm, hr]
    · intro hv hr
      unfold fromNumpy
      rw [hp]
      have hn : ¬ (x.maxIter ≠ 0 ∧ lossRaises p.encs = true) := by
        rintro ⟨h1, h2⟩
        rcases hr with hr | hr
        · exact h1 hr
        · rw [hr] at h2; cases h2
      obtain ⟨s, hs, -⟩ := fit_terminates (P := torchProblem (archOf x p.data.cols) p.encs (p.data.rows.map realRow) x.lasso x.ridge)
        (minimize := minimize) (bnds := boundsOf (archOf x p.data.cols) p.tabu) (fun w => WithTop.coe_ne_top)
        (initParams (archOf x p.data.cols) init) x.maxIter hfuel
      simp only [hv, Bool.not_true, Bool.false_eq_true, if_false, hn, hs]
      exact ⟨_, rfl⟩

/-- Data that can be used: nonempty, a type for exactly the columns if any are given, no negative counts. -/
def UsableData (X : Frame) (schema : Option (List (ℕ × Alias))) : Prop :=
  X.rows ≠ [] ∧ 0 < X.cols ∧ (∀ s, schema = some s → ∀ i, i ∈ s.map Prod.fst ↔ i < X.cols) ∧
    ∀ i, (i, Alias.poiss) ∈ schemaOf X schema → ∀ v ∈ X.column i, 0 ≤ v

/-- A hidden layer without units after a first one with units. -/
def EmptyLayer (hidden : Option (List ℕ)) : Prop := ∃ m ms, hidden = some (m :: ms) ∧ m ≠ 0 ∧ 0 ∈ ms

/-- An ordinal variable that has the same value in all rows. -/
def OneValue (X : Frame) (schema : Option (List (ℕ × Alias))) : Prop :=
  ∃ i v, (i, Alias.ord) ∈ schemaOf X schema ∧ ∀ u ∈ X.column i, u = v

theorem valid_iff {N : Type} (x : Args N) (d : ℕ) : (archOf x d).valid = true ↔ ¬ EmptyLayer x.hidden := by
  unfold Arch.valid Arch.layerDims Arch.dims archOf EmptyLayer
  rcases hh : x.hidden with _ | l
  · simp [hiddenUnits]
  · rcases l with _ | ⟨m, ms⟩
    · simp [hiddenUnits]
    · by_cases hm : m = 0
      · simp [hiddenUnits, hm]
      · have hz : ∀ (l : List ℕ) (r : List ℕ), r.length = l.length → ((l.zip r).all (fun p => decide (p.1 ≠ 0)) = true ↔ 0 ∉ l) := by
          intro l
          induction l with
          | nil => simp
          | cons a l ih =>
            intro r hr
            cases r with
            | nil => simp at hr
            | cons b r =>
              rw [List.zip_cons_cons, List.all_cons, Bool.and_eq_true, ih r (by simpa using hr)]
              simp only [decide_eq_true_eq, List.mem_cons, not_or]
              exact and_congr_left' ⟨fun h h' => h h'.symm, fun h h' => h h'.symm⟩
        have e1 : (hiddenUnits (some (m :: ms))) = m :: ms := rfl
        simp only [e1, List.headD_cons, ne_eq, hm, not_false_eq_true, if_true, List.tail_cons, List.cons_append]
        rw [show (m :: (ms ++ [1])).dropLast = m :: ms by
          rw [← List.cons_append, List.dropLast_concat], hz _ _ (by simp)]
        constructor
        · rintro h ⟨m', ms', h1, -, h3⟩
          cases h1
          exact h (List.mem_cons_of_mem _ h3)
        · intro h h0
          rcases List.mem_cons.1 h0 with h0 | h0
          · exact hm h0.symm
          · exact h ⟨m, ms, rfl, hm, h0⟩

theorem lossRaises_iff {X : Frame} {schema : Option (List (ℕ × Alias))} {t : Tabu ℕ} {p : Prep} (hwf : X.WF) (hd : SchemaDict schema)
    (h : prepareChecked X schema t = .ok p) : lossRaises p.encs = true ↔ OneValue X schema := by
  obtain ⟨h1, -, -, h4, -⟩ := prepare_layout X schema t p hwf hd h
  have hlen : ∀ (l cats : List ℚ), SortedValues l cats → (cats.length ≤ 1 ↔ ∃ v, ∀ u ∈ l, u = v) := by
    rintro l cats ⟨hs, hm⟩
    constructor
    · intro hl
      match cats, hl with
      | [], _ => exact ⟨0, fun u hu => absurd ((hm u).2 hu) (by simp)⟩
      | [c], _ => exact ⟨c, fun u hu => by simpa using (hm u).2 hu⟩
    · rintro ⟨v, hv⟩
      match cats with
      | [] => simp
      | [c] => simp
      | a :: b :: cs =>
        have ha := hv a ((hm a).1 (by simp))
        have hb := hv b ((hm b).1 (by simp))
        have := (List.pairwise_cons.1 hs).1 b (by simp)
        rw [ha, hb] at this
        exact absurd this (lt_irrefl _)
  unfold lossRaises OneValue
  rw [List.any_eq_true, ← h1]
  constructor
  · rintro ⟨e, he, hr⟩
    have hl := h4 e he
    cases e with
    | ord i cats counts =>
      obtain ⟨l1, l2⟩ := hl
      have : counts.length ≤ 1 := by simpa using hr
      rw [l2, List.length_map] at this
      obtain ⟨v, hv⟩ := (hlen _ _ l1).1 this
      exact ⟨i, v, List.mem_map.2 ⟨_, he, rfl⟩, hv⟩
    | _ => simp at hr
  · rintro ⟨i, v, hi, hv⟩
    obtain ⟨e, he, hie⟩ := List.mem_map.1 hi
    refine ⟨e, he, ?_⟩
    have hl := h4 e he
    cases e with
    | ord i' cats counts =>
      obtain ⟨l1, l2⟩ := hl
      have : i' = i := congrArg Prod.fst hie
      subst this
      have := (hlen _ _ l1).2 ⟨v, hv⟩
      simpa [l2] using this
    | _ => exact absurd (congrArg Prod.snd hie) (by simp [Enc.alias])

/-- **C42**, **C80**: what `from_numpy` returns or raises, by the data and the arguments alone, for every behaviour of the optimiser.  With
`max_iter = 0` an ordinal variable with a single value raises nothing. -/
theorem fromNumpy_outcome (minimize : Minimizer ℝ) (init : ℕ → ℝ) {fuel : ℕ} (hfuel : 17 ≤ fuel) (X : Frame) (x : Args ℕ)
    (hwf : X.WF) (hd : SchemaDict x.schema) :
    (¬ UsableData X x.schema → fromNumpy minimize init fuel X x = .error .valueError) ∧
    (UsableData X x.schema →
      (EmptyLayer x.hidden → fromNumpy minimize init fuel X x = .error .zeroDivision) ∧
      (¬ EmptyLayer x.hidden → x.maxIter ≠ 0 → OneValue X x.schema → fromNumpy minimize init fuel X x = .error .indexError) ∧
      (¬ EmptyLayer x.hidden → x.maxIter = 0 ∨ ¬ OneValue X x.schema →
        ∃ g, fromNumpy minimize init fuel X x = .ok g ∧ g.arch.useBias = x.useBias ∧ g.arch.clamp = x.clamp ∧
          (g.arch.hidden = x.hidden.getD [] ∨ x.hidden.getD [] = [] ∧ g.arch.hidden = [0]) ∧
          ∀ k, (g.bias k = none ↔ x.useBias = false))) := by
  obtain ⟨t1, t2⟩ := fromNumpy_total minimize init hfuel X x hwf hd
  have hiff := (prepare_total X x.schema x.tabu hwf hd).1
  constructor
  · intro hn
    cases hp : prepareChecked X x.schema x.tabu with
    | error e => exact t1 e hp
    | ok p => exact absurd (hiff.1 ⟨p, hp⟩) hn
  · intro hu
    obtain ⟨p, hp⟩ := hiff.2 hu
    obtain ⟨a1, a2, a3⟩ := t2 p hp
    have hv := valid_iff x p.data.cols
    have hl := lossRaises_iff hwf hd hp
    refine ⟨fun h => a1 ?_, fun h h' h'' => a2 (hv.2 h) h' (hl.2 h''), ?_⟩
    · cases hb : (archOf x p.data.cols).valid with
      | false => rfl
      | true => exact absurd h (hv.1 hb)
    · intro h h'
      have h'' : x.maxIter = 0 ∨ lossRaises p.encs = false := by
        rcases h' with h' | h'
        · exact Or.inl h'
        · right
          cases hb : lossRaises p.encs with
          | false => rfl
          | true => exact absurd (hl.1 hb) h'
      obtain ⟨g, hg⟩ := a3 (hv.2 h) h''
      obtain ⟨p', s, -, -, -, rfl⟩ := fromNumpy_ok hg
      refine ⟨_, hg, rfl, rfl, ?_, ?_⟩
      · change hiddenUnits x.hidden = _ ∨ _ ∧ hiddenUnits x.hidden = _
        rcases x.hidden with _ | _ | ⟨m, ms⟩ <;> simp [hiddenUnits]
      · intro k
        simp only [buildGraph, Option.map_eq_none_iff, Arch.net]
        cases hb : x.useBias <;> simp [archOf, hb]

/-! ### The edges -/

section
variable {minimize : Minimizer ℝ} {init : ℕ → ℝ} {fuel : ℕ} {X : Frame} {x : Args ℕ} {g : Learned ℕ}

/-- The variables of the result. -/
theorem fromNumpy_layout (hwf : X.WF) (hd : SchemaDict x.schema) (h : fromNumpy minimize init fuel X x = .ok g) :
    Layout g.encs X.cols g.arch.d ∧ g.encs.map (fun e => (e.idx, e.alias)) = schemaOf X x.schema ∧
      g.nodes = List.range g.arch.d ∧ (∀ k e, g.distType k = some e ↔ e ∈ g.encs ∧ k ∈ e.cols) := by
  obtain ⟨p, s, hp, -, -, rfl⟩ := fromNumpy_ok h
  have hl : Layout p.encs X.cols p.data.cols := prepare_isLayout hwf hd hp
  refine ⟨hl, (prepare_layout X x.schema x.tabu p hwf hd hp).1, rfl, ?_⟩
  intro k e
  change attachTypes p.encs k = some e ↔ e ∈ p.encs ∧ k ∈ e.cols
  have key : ∀ (es : List Enc) (f : ℕ → Option Enc), (∀ e ∈ es, ∀ e' ∈ es, k ∈ e.cols → k ∈ e'.cols → e = e') →
      (es.foldl (fun f e k => if k ∈ e.cols then some e else f k) f k = some e ↔
        (e ∈ es ∧ k ∈ e.cols) ∨ ((∀ e' ∈ es, k ∉ e'.cols) ∧ f k = some e)) := by
    intro es
    induction es with
    | nil => intro f _; simp
    | cons c es ih =>
      intro f hu
      rw [List.foldl_cons, ih _ (fun e he e' he' => hu e (List.mem_cons_of_mem _ he) e' (List.mem_cons_of_mem _ he'))]
      by_cases hk : k ∈ c.cols
      · rw [if_pos hk]
        constructor
        · rintro (⟨h1, h2⟩ | ⟨h1, h2⟩)
          · exact Or.inl ⟨List.mem_cons_of_mem _ h1, h2⟩
          · cases h2; exact Or.inl ⟨List.mem_cons_self, hk⟩
        · rintro (⟨h1, h2⟩ | ⟨h1, h2⟩)
          · obtain rfl := hu e h1 c List.mem_cons_self h2 hk
            by_cases hex : e ∈ es
            · exact Or.inl ⟨hex, h2⟩
            · refine Or.inr ⟨fun e' he' hke => hex ?_, rfl⟩
              rw [hu e List.mem_cons_self e' (List.mem_cons_of_mem _ he') h2 hke]; exact he'
          · exact absurd hk (h1 c List.mem_cons_self)
      · rw [if_neg hk]
        constructor
        · rintro (⟨h1, h2⟩ | ⟨h1, h2⟩)
          · exact Or.inl ⟨List.mem_cons_of_mem _ h1, h2⟩
          · refine Or.inr ⟨?_, h2⟩
            intro e' he'
            rcases List.mem_cons.1 he' with rfl | he'
            · exact hk
            · exact h1 e' he'
        · rintro (⟨h1, h2⟩ | ⟨h1, h2⟩)
          · rcases List.mem_cons.1 h1 with rfl | h1
            · exact absurd h2 hk
            · exact Or.inl ⟨h1, h2⟩
          · exact Or.inr ⟨fun e' he' => h1 e' (List.mem_cons_of_mem _ he'), h2⟩
  unfold attachTypes
  rw [key p.encs _ fun e he e' he' => hl.owner_unique he he']
  simp

/-- **C61**, the API: every learned edge goes from a column of a variable `u` to a column of a variable `v` such that the user permits the
edge from `u` to `v` (in particular `u ≠ v`); its weight is positive and at least the threshold, its mean effect is at most the
weight in absolute value, and it is marked as learned. There are no two edges between the same columns. -/
theorem fromNumpy_edges (hm : RespectsBounds minimize) (hwf : X.WF) (hd : SchemaDict x.schema) (ht : TabuBelow X.cols x.tabu)
    (h : fromNumpy minimize init fuel X x = .ok g) :
    (∀ e ∈ g.edges, ∃ u ∈ g.encs, ∃ v ∈ g.encs, e.src ∈ u.cols ∧ e.dst ∈ v.cols ∧ Permitted x.tabu u.idx v.idx ∧
      0 < e.weight ∧ (∀ t, x.wThreshold = some t → t ≤ e.weight) ∧ |e.meanEffect| ≤ e.weight ∧ e.origin = "learned") ∧
    (∀ e ∈ g.edges, ∀ e' ∈ g.edges, e.src = e'.src → e.dst = e'.dst → e = e') := by
  obtain ⟨p, s, hp, -, hs, rfl⟩ := fromNumpy_ok h
  have hl : Layout p.encs X.cols p.data.cols := prepare_isLayout hwf hd hp
  have hbox := (fit_result hs).1 hm (initParams_inBox _ _ _)
  refine ⟨?_, ?_⟩
  · intro e he
    obtain ⟨h1, h2, h3, h4, h5, h6, h7⟩ := mem_buildGraph.1 he
    obtain ⟨u, hu, hu'⟩ := hl.owner h1
    obtain ⟨v, hv, hv'⟩ := hl.owner h2
    refine ⟨u, hu, v, hv, hu', hv', ?_, ?_, h5, ?_, h7⟩
    · rw [← permitted_expanded hwf hd ht hp hu hv hu' hv']
      by_contra hn
      exact h4 (by rw [h3]; exact (adjacency_excluded _ p.tabu s.params hbox _ _ _ h1 h2 hn).1)
    · rw [h3] at h4 ⊢
      exact lt_of_le_of_ne (adjacency_nonneg _ _ _ _ _) (Ne.symm h4)
    · rw [h6, h3]; exact meanEffect_le _ _ _ _ _
  · intro e he e' he' hsrc hdst
    obtain ⟨-, -, h3, -, -, h6, h7⟩ := mem_buildGraph.1 he
    obtain ⟨-, -, h3', -, -, h6', h7'⟩ := mem_buildGraph.1 he'
    obtain ⟨a1, a2, a3, a4, a5⟩ := e
    obtain ⟨b1, b2, b3, b4, b5⟩ := e'
    simp only at *
    subst hsrc hdst
    rw [h3, h3', h6, h6', h7, h7']

/-- **C62**, the API: an edge of the collapsed graph between two variables is present exactly if some weight between their columns is
not zero; its weight is the sum over all pairs of columns. Without a threshold these are exactly the learned edges. -/
theorem fromNumpy_collapsed (hwf : X.WF) (hd : SchemaDict x.schema) (h : fromNumpy minimize init fuel X x = .ok g) :
    ∃ adj : ℕ → ℕ → ℝ, (∀ i j, 0 ≤ adj i j) ∧
    (∀ e : LEdge ℕ, e ∈ g.edges → e.weight = adj e.src e.dst) ∧
    (x.wThreshold = none → ∀ i j, i < g.arch.d → j < g.arch.d → ((∃ e ∈ g.edges, e.src = i ∧ e.dst = j) ↔ adj i j ≠ 0)) ∧
    g.collapsed.nodes = List.range X.cols ∧
    ∀ e : Notears.Edge ℕ ℝ, e ∈ g.collapsed.edges ↔ ∃ u ∈ g.encs, ∃ v ∈ g.encs, e.src = u.idx ∧ e.dst = v.idx ∧
      (∃ a ∈ u.cols, ∃ b ∈ v.cols, adj a b ≠ 0) ∧ e.weight = ∑ a ∈ u.cols.toFinset, ∑ b ∈ v.cols.toFinset, adj a b ∧
      e.origin = "unknown" := by
  obtain ⟨p, s, hp, -, hs, rfl⟩ := fromNumpy_ok h
  have hl : Layout p.encs X.cols p.data.cols := prepare_isLayout hwf hd hp
  refine ⟨adjacency (archOf x p.data.cols) ((archOf x p.data.cols).net s.params) (p.data.rows.map realRow),
    adjacency_nonneg _ _ _, ?_, ?_, rfl, ?_⟩
  · intro e he
    exact (mem_buildGraph.1 he).2.2.1
  · intro hthr i j hi hj
    constructor
    · rintro ⟨e, he, rfl, rfl⟩
      obtain ⟨-, -, h3, h4, -⟩ := mem_buildGraph.1 he
      rw [← h3]; exact h4
    · intro hne
      refine ⟨⟨i, j, adjacency (archOf x p.data.cols) ((archOf x p.data.cols).net s.params) (p.data.rows.map realRow) i j,
        meanEffect (archOf x p.data.cols) ((archOf x p.data.cols).net s.params) (p.data.rows.map realRow) i j, "learned"⟩,
        mem_buildGraph.2 ⟨hi, hj, rfl, hne, ?_, rfl, rfl⟩, rfl, rfl⟩
      intro t ht; rw [hthr] at ht; cases ht
  · intro e
    set adj := adjacency (archOf x p.data.cols) ((archOf x p.data.cols).net s.params) (p.data.rows.map realRow) with hadj
    change e ∈ (ofMatrix X.cols (collapseAll p.encs adj)).edges ↔ ∃ u ∈ p.encs, ∃ v ∈ p.encs, _
    rw [mem_ofMatrix]
    constructor
    · rintro ⟨h1, h2, h3, h4, h5⟩
      obtain ⟨u, hu, hu'⟩ := hl.var h1
      obtain ⟨v, hv, hv'⟩ := hl.var h2
      obtain ⟨c1, c2⟩ := collapse_blocks hl adj hu hv
      refine ⟨u, hu, v, hv, hu'.symm, hv'.symm, ?_, ?_, h5⟩
      · rw [← hu', ← hv'] at h3
        exact (c2 (adjacency_nonneg _ _ _)).2.1 h3
      · rw [h4, ← hu', ← hv', c1]
    · rintro ⟨u, hu, v, hv, h1, h2, h3, h4, h5⟩
      obtain ⟨c1, c2⟩ := collapse_blocks hl adj hu hv
      refine ⟨by rw [h1]; exact hl.idx_lt hu, by rw [h2]; exact hl.idx_lt hv, ?_, ?_, h5⟩
      · rw [h1, h2]; exact (c2 (adjacency_nonneg _ _ _)).2.2 h3
      · rw [h4, h1, h2, c1]

/-- **C61**: the collapsed graph has only edges permitted by the user. -/
theorem fromNumpy_collapsed_permitted (hm : RespectsBounds minimize) (hwf : X.WF) (hd : SchemaDict x.schema)
    (ht : TabuBelow X.cols x.tabu) (h : fromNumpy minimize init fuel X x = .ok g) :
    ∀ e ∈ g.collapsed.edges, Permitted x.tabu e.src e.dst ∧ 0 < e.weight := by
  obtain ⟨p, s, hp, -, hs, rfl⟩ := fromNumpy_ok h
  have hl : Layout p.encs X.cols p.data.cols := prepare_isLayout hwf hd hp
  have hbox := (fit_result hs).1 hm (initParams_inBox _ _ _)
  intro e he
  obtain ⟨h1, h2, h3, h4, -⟩ := mem_ofMatrix.1 he
  obtain ⟨u, hu, hu'⟩ := hl.var h1
  obtain ⟨v, hv, hv'⟩ := hl.var h2
  rw [← hu', ← hv'] at h3 h4
  obtain ⟨h0, hiff⟩ := (collapse_blocks hl _ hu hv).2 (adjacency_nonneg (archOf x p.data.cols) ((archOf x p.data.cols).net s.params)
    (p.data.rows.map realRow))
  refine ⟨?_, by rw [h4]; exact lt_of_le_of_ne h0 (Ne.symm h3)⟩
  obtain ⟨a, ha, b, hb, hne⟩ := hiff.1 h3
  rw [← hu', ← hv', ← permitted_expanded hwf hd ht hp hu hv ha hb]
  by_contra hn
  exact hne (adjacency_excluded _ p.tabu s.params hbox _ _ _ (hl.col_lt hu ha) (hl.col_lt hv hb) hn).1

/-- **C42**: with `max_iter` 0 the learned graph and the collapsed graph have no edges. -/
theorem fromNumpy_no_iterations (hwf : X.WF) (hd : SchemaDict x.schema) (h : fromNumpy minimize init fuel X x = .ok g)
    (h0 : x.maxIter = 0) : g.edges = [] ∧ g.collapsed.edges = [] := by
  obtain ⟨p, s, hp, -, hs, rfl⟩ := fromNumpy_ok h
  have hl : Layout p.encs X.cols p.data.cols := prepare_isLayout hwf hd hp
  have hw := (fit_result hs).2.2 h0
  have hz : ∀ i j, i < p.data.cols → j < p.data.cols →
      adjacency (archOf x p.data.cols) ((archOf x p.data.cols).net s.params) (p.data.rows.map realRow) i j = 0 := by
    intro i j hi hj
    refine (adjacency_zero (archOf x p.data.cols) s.params (p.data.rows.map realRow) i j hi hj fun k hk => ?_).1
    rw [hw]; exact initParams_zero _ _ ((archOf x p.data.cols).pos_lt hi hj hk)
  refine ⟨?_, ?_⟩
  · refine List.eq_nil_iff_forall_not_mem.2 fun e he => ?_
    obtain ⟨h1, h2, h3, h4, -⟩ := mem_buildGraph.1 he
    exact h4 (by rw [h3]; exact hz _ _ h1 h2)
  · refine List.eq_nil_iff_forall_not_mem.2 fun e he => ?_
    obtain ⟨h1, h2, h3, -⟩ := mem_ofMatrix.1 he
    obtain ⟨u, hu, hu'⟩ := hl.var h1
    obtain ⟨v, hv, hv'⟩ := hl.var h2
    rw [← hu', ← hv'] at h3
    obtain ⟨a, ha, b, hb, hne⟩ := ((collapse_blocks hl _ hu hv).2 (adjacency_nonneg _ _ _)).2.1 h3
    exact hne (hz _ _ (hl.col_lt hu ha) (hl.col_lt hv hb))

end

end Verif.Pytorch
