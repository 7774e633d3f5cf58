import Verif.Generators.StationarySpec
import Verif.Generators.DynamicProps
import Verif.Generators.SimulateProps

/-!
# Properties of `gen_stationary_dyn_net_and_df`
-/

namespace Verif.Generators

open Verif.Notears (Graph)
open Verif.Str (Str natStr natStr_inj)
open Verif.Dynotears (lagName lagName_inj underscore_not_mem)

section
variable {K : Type} [Field K] [LinearOrder K]

theorem DynamicDag.lagged {n p : ℕ} {lo hi lo' hi' decay : K} {g : Graph Str K} (h : DynamicDag n p lo hi lo' hi' decay g) :
    Lagged ((List.range n).map natStr) p g := by
  refine ⟨List.nodup_range.map fun a b h => natStr_inj h, h.nodup, fun v => ?_⟩
  rw [h.nodes]
  constructor
  · rintro ⟨i, hi, k, hk, rfl⟩
    exact ⟨_, List.mem_map.2 ⟨i, List.mem_range.2 hi, rfl⟩, k, hk, rfl⟩
  · rintro ⟨u, hu, k, hk, rfl⟩
    obtain ⟨i, hi, rfl⟩ := List.mem_map.1 hu
    exact ⟨i, List.mem_range.1 hi, k, hk, rfl⟩

theorem mem_intraNodes {g : Graph Str K} {v : Str} : v ∈ intraNodes g ↔ v ∈ g.nodes ∧ isPresent v = true := by
  rw [(intraNodes_perm g).mem_iff, List.mem_filter]

theorem mem_interNodes {g : Graph Str K} {v : Str} : v ∈ interNodes g ↔ v ∈ g.nodes ∧ isPresent v = false := by
  rw [(interNodes_perm g).mem_iff, List.mem_filter]
  simp

theorem names_perm (g : Graph Str K) : (intraNodes g ++ interNodes g).Perm g.nodes :=
  ((intraNodes_perm g).append (interNodes_perm g)).trans (List.filter_append_perm isPresent g.nodes)

/-- The condition in the code is the one wanted. -/
theorem acceptGraph_iff {n p : ℕ} {lo hi lo' hi' decay : K} {g : Graph Str K} (h : DynamicDag n p lo hi lo' hi' decay g)
    (a : DynParams K) : acceptGraph a g = true ↔ Wanted a g := by
  have key : ∀ e ∈ g.edges, ∃ i k j, e.src = lagName (natStr i) k ∧ e.dst = lagName (natStr j) 0 ∧
      (e.src ∈ intraNodes g ↔ k = 0) ∧ (e.src ∈ interNodes g ↔ k ≠ 0) := by
    intro e he
    obtain ⟨i, hi, k, hk, j, hj, h1, h2, -⟩ := h.edges e he
    have hn : e.src ∈ g.nodes := (h.nodes _).2 ⟨i, hi, k, hk, h1⟩
    have hp := isPresent_lagName (underscore_not_mem i) k
    refine ⟨i, k, j, h1, h2, ?_, ?_⟩
    · rw [mem_intraNodes, and_iff_right hn, h1, hp]
    · rw [mem_interNodes, and_iff_right hn, h1, ne_eq, ← hp]
      simp
  unfold acceptGraph Wanted BothKinds
  simp only [Bool.or_eq_true, Bool.and_eq_true, List.any_eq_true, decide_eq_true_eq, or_assoc]
  refine or_congr (and_congr ?_ ?_) Iff.rfl
  · constructor
    · rintro ⟨e, he, hs⟩
      obtain ⟨i, k, j, h1, h2, h3, -⟩ := key e he
      obtain rfl := h3.1 hs
      exact ⟨i, j, List.mem_map.2 ⟨e, he, by rw [h1, h2]⟩⟩
    · rintro ⟨i, j, hm⟩
      obtain ⟨e, he, hp⟩ := List.mem_map.1 hm
      obtain ⟨i', k, j', h1, h2, h3, -⟩ := key e he
      refine ⟨e, he, h3.2 ?_⟩
      have := (Prod.mk.inj hp).1
      rw [h1] at this
      exact (lagName_inj this).2
  · constructor
    · rintro ⟨e, he, hs⟩
      obtain ⟨i, k, j, h1, h2, -, h3⟩ := key e he
      exact ⟨i, k, j, h3.1 hs, List.mem_map.2 ⟨e, he, by rw [h1, h2]⟩⟩
    · rintro ⟨i, k, j, hk, hm⟩
      obtain ⟨e, he, hp⟩ := List.mem_map.1 hm
      obtain ⟨i', k', j', h1, h2, -, h3⟩ := key e he
      refine ⟨e, he, h3.2 ?_⟩
      have := (Prod.mk.inj hp).1
      rw [h1] at this
      rwa [(lagName_inj this).2]

variable [IsStrictOrderedRing K] [FloorRing K]

/-- The graphs made with the arguments `x`. -/
def StatArgs.Dag (x : StatArgs K) (g : Graph Str K) : Prop :=
  DynamicDag x.n x.p |x.dyn.wMinIntra| |x.dyn.wMaxIntra| x.dyn.wMinInter x.dyn.wMaxInter x.dyn.decay g

theorem Attempt.Makes.dag {x : StatArgs K} {A : Attempt K x.n} (hA : A.Uniform) {k : ℕ} {g : Graph Str K} (h : A.Makes x k g) :
    x.Dag g := by
  obtain ⟨r, r', h1, h2⟩ := h
  exact generateDynamic_dag (hA k r r' h1).1 (hA k r r' h1).2 h2

omit [IsStrictOrderedRing K] in
theorem Attempt.Makes.unique {x : StatArgs K} {A : Attempt K x.n} {k : ℕ} {g g' : Graph Str K} (h : A.Makes x k g)
    (h' : A.Makes x k g') : g = g' := by
  obtain ⟨r, r', h1, h2⟩ := h
  obtain ⟨s, s', h3, h4⟩ := h'
  rw [h1] at h3
  obtain ⟨rfl, rfl⟩ := Prod.mk.inj (Option.some.inj h3)
  rw [h2] at h4
  exact Except.ok.inj h4

omit [IsStrictOrderedRing K] in
theorem Attempt.Finds.unique {x : StatArgs K} {A : Attempt K x.n} {g g' : Graph Str K} (h : A.Finds x g) (h' : A.Finds x g') :
    g = g' := by
  obtain ⟨k, h1, h2, h3⟩ := h
  obtain ⟨k', h1', h2', h3'⟩ := h'
  rcases lt_trichotomy k k' with hlt | rfl | hlt
  · obtain ⟨g'', h4, h5⟩ := h3' k hlt
    rw [← h1.unique h4] at h5
    exact absurd h2 h5
  · exact h1.unique h1'
  · obtain ⟨g'', h4, h5⟩ := h3 k' hlt
    rw [← h1'.unique h4] at h5
    exact absurd h2' h5

/-- The inner loop. -/
theorem drawGraph_ok {x : StatArgs K} {A : Attempt K x.n} (hA : A.Uniform) {fuel k : ℕ} {g : Option (Graph Str K)}
    {res : Option (Graph Str K) × Bool} (h : drawGraph x A.graphs fuel k g = some (.ok res)) :
    ∃ m, k ≤ m ∧ m < k + fuel ∧ (∀ l, k ≤ l → l < m → ∃ g', A.Makes x l g' ∧ ¬ Wanted x.dyn g') ∧
      ((res.2 = true ∧ ∃ g', res.1 = some g' ∧ A.Makes x m g' ∧ Wanted x.dyn g') ∨
        (res.2 = false ∧ A.graphs m = none ∧ ((m = k ∧ res.1 = g) ∨ (k < m ∧ ∃ g', res.1 = some g' ∧ A.Makes x (m - 1) g')))) := by
  induction fuel generalizing k g with
  | zero => exact absurd h (by simp [drawGraph])
  | succ fuel ih =>
    rw [drawGraph] at h
    split at h
    · rename_i hn
      obtain rfl := Except.ok.inj (Option.some.inj h)
      exact ⟨k, le_rfl, by omega, fun l h1 h2 => by omega, Or.inr ⟨rfl, hn, Or.inl ⟨rfl, rfl⟩⟩⟩
    · rename_i r hr
      split at h
      · exact absurd h (by simp)
      · rename_i g1 hg1
        have hm : A.Makes x k g1 := ⟨r.1, r.2, hr, hg1⟩
        have hacc := acceptGraph_iff (hm.dag hA) x.dyn
        split at h
        · rename_i ha
          obtain rfl := Except.ok.inj (Option.some.inj h)
          exact ⟨k, le_rfl, by omega, fun l h1 h2 => by omega, Or.inl ⟨rfl, g1, rfl, hm, hacc.1 ha⟩⟩
        · rename_i ha
          obtain ⟨m, h1, h2, h3, h4⟩ := ih h
          refine ⟨m, by omega, by omega, fun l hl1 hl2 => ?_, ?_⟩
          · rcases Nat.eq_or_lt_of_le hl1 with rfl | hlt
            · exact ⟨g1, hm, fun hw => ha (hacc.2 hw)⟩
            · exact h3 l hlt hl2
          · rcases h4 with h4 | ⟨h4, h5, ⟨rfl, h6⟩ | ⟨h6, h7⟩⟩
            · exact Or.inl h4
            · exact Or.inr ⟨h4, h5, Or.inr ⟨by omega, g1, h6, by rwa [Nat.add_sub_cancel]⟩⟩
            · exact Or.inr ⟨h4, h5, Or.inr ⟨by omega, h7⟩⟩

omit [IsStrictOrderedRing K] in
theorem drawGraph_error {x : StatArgs K} {A : Attempt K x.n} {fuel k : ℕ} {g : Option (Graph Str K)} {e : Err}
    (h : drawGraph x A.graphs fuel k g = some (.error e)) : ∃ r r', generateDynamic x.n x.p x.dyn r r' = .error e := by
  induction fuel generalizing k g with
  | zero => exact absurd h (by simp [drawGraph])
  | succ fuel ih =>
    rw [drawGraph] at h
    split at h
    · exact absurd h (by simp)
    · split at h
      · rename_i e' he
        obtain rfl := Except.error.inj (Option.some.inj h)
        exact ⟨_, _, he⟩
      · split at h
        · exact absurd h (by simp)
        · exact ih h

/-- If the inner loop does not end, no graph made is wanted. -/
theorem drawGraph_none {x : StatArgs K} {A : Attempt K x.n} (hA : A.Uniform) {fuel k : ℕ} {g : Option (Graph Str K)} :
    drawGraph x A.graphs fuel k g = none ↔ ∀ l < fuel, ∃ g', A.Makes x (k + l) g' ∧ ¬ Wanted x.dyn g' := by
  induction fuel generalizing k g with
  | zero => simp [drawGraph]
  | succ fuel ih =>
    have hsplit : (∀ l < fuel + 1, ∃ g', A.Makes x (k + l) g' ∧ ¬ Wanted x.dyn g') ↔
        (∃ g', A.Makes x k g' ∧ ¬ Wanted x.dyn g') ∧ ∀ l < fuel, ∃ g', A.Makes x (k + 1 + l) g' ∧ ¬ Wanted x.dyn g' := by
      constructor
      · intro h
        exact ⟨h 0 (by omega), fun l hl => by
          have := h (l + 1) (by omega)
          rwa [show k + (l + 1) = k + 1 + l by omega] at this⟩
      · rintro ⟨h0, h1⟩ l hl
        cases l with
        | zero => exact h0
        | succ l =>
          have := h1 l (by omega)
          rwa [show k + (l + 1) = k + 1 + l by omega]
    rw [drawGraph, hsplit]
    split
    · rename_i hn
      simp only [reduceCtorEq, false_iff]
      rintro ⟨⟨g', ⟨r, r', h1, -⟩, -⟩, -⟩
      rw [hn] at h1
      cases h1
    · rename_i r hr
      split
      · rename_i e he
        simp only [reduceCtorEq, false_iff]
        rintro ⟨⟨g', ⟨s, s', h1, h2⟩, -⟩, -⟩
        rw [hr] at h1
        obtain rfl := Option.some.inj h1
        rw [he] at h2
        cases h2
      · rename_i g1 hg1
        have hm : A.Makes x k g1 := ⟨r.1, r.2, hr, hg1⟩
        have hacc := acceptGraph_iff (hm.dag hA) x.dyn
        split
        · rename_i ha
          simp only [reduceCtorEq, false_iff]
          rintro ⟨⟨g', h1, h2⟩, -⟩
          rw [← hm.unique h1] at h2
          exact h2 (hacc.1 ha)
        · rename_i ha
          rw [ih]
          exact (and_iff_right ⟨g1, hm, fun hw => ha (hacc.2 hw)⟩).symm

/-! ### Data -/

omit [IsStrictOrderedRing K] [FloorRing K] in
theorem loc_lastRows {g : Graph Str K} (hg : g.nodes.Nodup) {n burnIn first : ℕ} {semType : String} {drift : Option (ℕ → K)}
    {noise : ℕ → ℕ → K} {order : List ℕ} {F : DataFrame K} (h : generateDataframe g n burnIn semType drift noise order = .ok F) :
    LastRows g F first (F.loc first (intraNodes g ++ interNodes g)) := by
  obtain ⟨-, -, -, -, hcols, -, -⟩ := generateDataframe_ok hg h
  have hnd : (F.cols.map Prod.fst).Nodup := by
    rw [hcols]
    exact (names_perm g).nodup_iff.2 hg
  have hl : F.loc first (intraNodes g ++ interNodes g) = ⟨F.rows - first, F.cols.map fun c => (c.1, fun t => c.2 (first + t))⟩ := by
    unfold DataFrame.loc
    rw [← hcols, List.filterMap_map]
    congr 1
    rw [← List.filterMap_eq_map]
    refine List.filterMap_congr fun c hc => ?_
    simp only [Function.comp]
    rw [find_col hnd hc]
    rfl
  rw [hl]
  refine ⟨?_, rfl, ?_⟩
  · rw [← hcols, List.map_map]
    rfl
  · intro v hv t ht
    unfold DataFrame.get
    dsimp only at ht ⊢
    rw [if_pos ht, if_pos (by omega), List.find?_map]
    simp only [Function.comp_def, Option.map_map]

omit [IsStrictOrderedRing K] [FloorRing K] in
theorem DataFrame.get_of_mem {F : DataFrame K} (hnd : (F.cols.map Prod.fst).Nodup) {c : Str × (ℕ → K)} (hc : c ∈ F.cols) {t : ℕ}
    (ht : t < F.rows) : F.get c.1 t = some (c.2 t) := by
  unfold DataFrame.get
  rw [if_pos ht, find_col hnd hc]
  rfl

omit [IsStrictOrderedRing K] [FloorRing K] in
theorem small_iff {g : Graph Str K} (hg : g.nodes.Nodup) (hne : g.nodes ≠ []) {F G : DataFrame K} {first : ℕ} (h : LastRows g F first G) :
    G.small = true ↔ G.rows ≠ 0 ∧ ∀ v ∈ g.nodes, ∀ t < G.rows, ∃ y, F.get v (first + t) = some y ∧ |y| < 1000 := by
  have hnd : (G.cols.map Prod.fst).Nodup := by
    rw [h.names]
    exact (names_perm g).nodup_iff.2 hg
  have hmem : ∀ v, v ∈ g.nodes ↔ ∃ c ∈ G.cols, c.1 = v := by
    intro v
    rw [← (names_perm g).mem_iff, ← h.names, List.mem_map]
  have hne' : G.cols.isEmpty = false := by
    rw [List.isEmpty_eq_false_iff]
    intro h0
    obtain ⟨v, hv⟩ := List.exists_mem_of_ne_nil _ hne
    obtain ⟨c, hc, -⟩ := (hmem v).1 hv
    rw [h0] at hc
    cases hc
  unfold DataFrame.small
  simp only [hne', Bool.not_false, Bool.and_true, Bool.and_eq_true, decide_eq_true_eq, List.all_eq_true, List.mem_range]
  refine and_congr Iff.rfl ?_
  constructor
  · intro hall v hv t ht
    obtain ⟨c, hc, rfl⟩ := (hmem v).1 hv
    rw [← h.values _ hv t ht, DataFrame.get_of_mem hnd hc ht]
    exact ⟨_, rfl, hall c hc t ht⟩
  · intro hall c hc t ht
    obtain ⟨y, h1, h2⟩ := hall c.1 ((hmem c.1).2 ⟨c, hc, rfl⟩) t ht
    rw [← h.values _ ((hmem c.1).2 ⟨c, hc, rfl⟩) t ht, DataFrame.get_of_mem hnd hc ht] at h1
    rwa [Option.some.inj h1]

omit [IsStrictOrderedRing K] [FloorRing K] in
/-- Data can be made from every graph. -/
theorem data_total {n p : ℕ} {lo hi lo' hi' decay : K} {g : Graph Str K} (h : DynamicDag n p lo hi lo' hi' decay g) (hn : n ≠ 0)
    {semType : String} (hs : semType ∈ ["linear-gauss", "linear-exp", "linear-gumbel"]) (m burnIn : ℕ) (noise : ℕ → ℕ → K) (order : List ℕ) :
    ∃ F, generateDataframe g m burnIn semType none noise order = .ok F := by
  obtain ⟨order', -, F, hF⟩ := generateDataframe_total h.lagged (by
    intro u hu
    obtain ⟨i, -, rfl⟩ := List.mem_map.1 hu
    exact underscore_not_mem i) (by simpa using hn) h.acyclic m burnIn hs none noise
  unfold generateDataframe at hF ⊢
  dsimp only at hF ⊢
  split_ifs at hF ⊢ <;> exact ⟨_, rfl⟩

omit [IsStrictOrderedRing K] [FloorRing K] in
theorem data_error {n p : ℕ} {lo hi lo' hi' decay : K} {g : Graph Str K} (h : DynamicDag n p lo hi lo' hi' decay g) (hn : n ≠ 0)
    {semType : String} {m burnIn : ℕ} {noise : ℕ → ℕ → K} {order : List ℕ} {e : SimErr}
    (he : generateDataframe g m burnIn semType none noise order = .error e) :
    e = .valueError ∧ semType ∉ ["linear-gauss", "linear-exp", "linear-gumbel"] := by
  by_cases hs : semType ∈ ["linear-gauss", "linear-exp", "linear-gumbel"]
  · obtain ⟨F, hF⟩ := data_total h hn hs m burnIn noise order
    rw [hF] at he
    cases he
  · refine ⟨?_, hs⟩
    unfold generateDataframe at he
    rw [if_pos hs] at he
    exact (Except.error.inj he).symm

/-! ### One attempt -/

omit [IsStrictOrderedRing K] in
theorem Attempt.Makes.two_le [IsStrictOrderedRing K] {x : StatArgs K} {A : Attempt K x.n} {k : ℕ} {g : Graph Str K}
    (h : A.Makes x k g) : 2 ≤ x.n := by
  obtain ⟨r, r', -, h⟩ := h
  exact ((generateDynamic_total x.n x.p x.dyn r r').1.1 ⟨g, h⟩).1

theorem StatArgs.Dag.ne {x : StatArgs K} {g : Graph Str K} (h : x.Dag g) (hn : 2 ≤ x.n) : g.nodes ≠ [] := by
  intro h0
  have := h.count
  rw [h0, List.length_nil] at this
  have := Nat.mul_pos (show 0 < x.n by omega) (show 0 < x.p + 1 by omega)
  omega

/-- What an attempt that returns has done. -/
theorem attempt_ok {x : StatArgs K} {A : Attempt K x.n} (hA : A.Uniform) {fuel : ℕ} {order : Graph Str K → List ℕ}
    {g g' : Option (Graph Str K)} {F' : Option (DataFrame K)} (h : attempt fuel x order A g = some (.ok (g', F'))) :
    (g' = none → g = none ∧ A.graphs 0 = none) ∧
    (g' = g ∨ ∃ k g1, g' = some g1 ∧ A.Makes x k g1) ∧
    (F' = none → ∀ g1, ¬ A.Succeeds x order g1) ∧
    ∀ G, F' = some G → ∃ g1 F, g' = some g1 ∧ A.Finds x g1 ∧
      generateDataframe g1 (x.nSamples + statBurnIn x.nSamples) 100 x.semType none A.noise (order g1) = .ok F ∧
      LastRows g1 F (statBurnIn x.nSamples) G ∧ G.rows = x.nSamples ∧ (G.small = true ↔ A.Succeeds x order g1) := by
  unfold attempt at h
  split at h
  · cases h
  · cases h
  · rename_i g1 hd
    obtain ⟨rfl, rfl⟩ := Prod.mk.inj (Except.ok.inj (Option.some.inj h))
    obtain ⟨m, -, -, h3, ⟨h4, -⟩ | ⟨-, h5, h6⟩⟩ := drawGraph_ok hA hd
    · cases h4
    refine ⟨?_, ?_, ?_, fun G hG => by cases hG⟩
    · rintro rfl
      rcases h6 with ⟨rfl, h6⟩ | ⟨-, g', h6, -⟩
      · exact ⟨h6.symm, h5⟩
      · cases h6
    · rcases h6 with ⟨rfl, h6⟩ | ⟨-, g', h6, h7⟩
      · exact Or.inl h6
      · exact Or.inr ⟨_, g', h6, h7⟩
    · rintro - g1 ⟨⟨k, hk, hw, hk'⟩, -⟩
      rcases lt_or_ge k m with hlt | hge
      · obtain ⟨g2, h7, h8⟩ := h3 k (Nat.zero_le _) hlt
        rw [← hk.unique h7] at h8
        exact h8 hw
      · have hex : ∃ g2, A.Makes x m g2 := by
          rcases Nat.eq_or_lt_of_le hge with rfl | hlt
          · exact ⟨g1, hk⟩
          · obtain ⟨g2, h7, -⟩ := hk' m hlt
            exact ⟨g2, h7⟩
        obtain ⟨g2, r, r', h7, -⟩ := hex
        rw [h5] at h7
        cases h7
  · rename_i hd
    obtain ⟨m, -, -, h3, ⟨h4, g', h5, -⟩ | ⟨h4, -⟩⟩ := drawGraph_ok hA hd
    · cases h5
    · cases h4
  · rename_i g1 hd
    obtain ⟨m, -, -, h3, ⟨-, g2, h5, hm, hw⟩ | ⟨h4, -⟩⟩ := drawGraph_ok hA hd
    swap
    · cases h4
    obtain rfl := Option.some.inj h5
    have hf : A.Finds x g1 := ⟨m, hm, hw, fun l hl => h3 l (Nat.zero_le _) hl⟩
    have hdag := hm.dag hA
    split at h
    · cases h
    · rename_i F hF
      split at h
      · rename_i hl
        obtain ⟨rfl, rfl⟩ := Prod.mk.inj (Except.ok.inj (Option.some.inj h))
        refine ⟨fun h => (by cases h), Or.inr ⟨m, g1, rfl, hm⟩, ?_, fun G hG => by cases hG⟩
        rintro - g2 ⟨-, hl', -⟩
        rw [hl] at hl'
        cases hl'
      · rename_i hl
        obtain ⟨rfl, rfl⟩ := Prod.mk.inj (Except.ok.inj (Option.some.inj h))
        refine ⟨fun h => (by cases h), Or.inr ⟨m, g1, rfl, hm⟩, fun h => (by cases h), fun G hG => ?_⟩
        obtain rfl := Option.some.inj hG
        have hrows := (generateDataframe_ok hdag.nodup hF).2.2.2.1
        have hlast := loc_lastRows (first := statBurnIn x.nSamples) hdag.nodup hF
        have hr : (F.loc (statBurnIn x.nSamples) (intraNodes g1 ++ interNodes g1)).rows = x.nSamples := by
          rw [hlast.rows, hrows, if_neg]
          · omega
          · unfold statBurnIn
            omega
        refine ⟨g1, F, rfl, hf, hF, hlast, hr, ?_⟩
        rw [small_iff hdag.nodup (hdag.ne hm.two_le) hlast, hr]
        constructor
        · rintro ⟨h1, h2⟩
          exact ⟨hf, by simpa using hl, h1, F, hF, h2⟩
        · rintro ⟨-, -, h1, F2, hF2, h2⟩
          rw [hF] at hF2
          obtain rfl := Except.ok.inj hF2
          exact ⟨h1, h2⟩

/-- An attempt fails for unsuitable arguments only. -/
theorem attempt_error {x : StatArgs K} {A : Attempt K x.n} (hA : A.Uniform) {fuel : ℕ} {order : Graph Str K → List ℕ}
    {g : Option (Graph Str K)} {e : GenErr} (h : attempt fuel x order A g = some (.error e)) : e = .valueError ∧ ¬ x.Valid := by
  unfold attempt at h
  split at h
  · cases h
  · rename_i e' hd
    obtain ⟨r, r', hr⟩ := drawGraph_error hd
    have ht := generateDynamic_total x.n x.p x.dyn r r'
    obtain rfl := Except.error.inj (Option.some.inj h)
    rw [ht.2 e' hr]
    refine ⟨rfl, fun hv => ?_⟩
    obtain ⟨g, hg⟩ := ht.1.2 ⟨hv.1, hv.2.1, hv.2.2.1, hv.2.2.2.1, hv.2.2.2.2.1⟩
    rw [hr] at hg
    cases hg
  · cases h
  · cases h
  · rename_i g1 hd
    obtain ⟨m, -, -, h3, ⟨-, g2, h5, hm, hw⟩ | ⟨h4, -⟩⟩ := drawGraph_ok hA hd
    swap
    · cases h4
    obtain rfl := Option.some.inj h5
    split at h
    · rename_i e' he
      obtain ⟨h6, h7⟩ := data_error (hm.dag hA) (by have := hm.two_le; omega) he
      obtain rfl := Except.error.inj (Option.some.inj h)
      rw [h6]
      exact ⟨rfl, fun hv => h7 hv.2.2.2.2.2⟩
    · split at h <;> cases h

/-- With suitable arguments an attempt that does not return makes unwanted graphs only. -/
theorem attempt_none {x : StatArgs K} {A : Attempt K x.n} (hA : A.Uniform) {fuel : ℕ} {order : Graph Str K → List ℕ}
    {g : Option (Graph Str K)} : attempt fuel x order A g = none ↔ ∀ l < fuel, ∃ g', A.Makes x l g' ∧ ¬ Wanted x.dyn g' := by
  have hd := drawGraph_none hA (x := x) (fuel := fuel) (k := 0) (g := g)
  simp only [Nat.zero_add] at hd
  rw [← hd]
  unfold attempt
  constructor
  · intro h
    split at h
    · assumption
    · cases h
    · cases h
    · cases h
    · split at h
      · cases h
      · split at h <;> cases h
  · intro h
    rw [h]

/-! ### The outer loop -/

theorem statLoop_ok {x : StatArgs K} {As : ℕ → Attempt K x.n} (hA : ∀ i, (As i).Uniform) {fuel : ℕ} {order : Graph Str K → List ℕ}
    {i : ℕ} {t : ℤ} {g : Option (Graph Str K)} (hg : ∀ g1, g = some g1 → x.Dag g1) {out : StatResult K}
    (h : statLoop fuel x order As i t g = some (.ok out)) :
    x.Dag out.graph ∧ out.intra = intraNodes out.graph ∧ out.inter = interNodes out.graph ∧
    ((out.warned = false ∧ ∃ j : ℕ, (j : ℤ) + 1 < t ∧ (As (i + j)).Succeeds x order out.graph ∧
        (∃ F, generateDataframe out.graph (x.nSamples + statBurnIn x.nSamples) 100 x.semType none (As (i + j)).noise
            (order out.graph) = .ok F ∧ LastRows out.graph F (statBurnIn x.nSamples) out.frame ∧ out.frame.rows = x.nSamples) ∧
        ∀ l < j, ∀ g1, ¬ (As (i + l)).Succeeds x order g1) ∨
      (out.warned = true ∧
        out.frame = ⟨x.nSamples, (intraNodes out.graph ++ interNodes out.graph).map fun l => (l, fun _ => 1)⟩ ∧
        ∀ j : ℕ, (j : ℤ) + 1 < t → ∀ g1, ¬ (As (i + j)).Succeeds x order g1)) := by
  induction hk : t.toNat using Nat.strong_induction_on generalizing i t g with
  | _ k ih =>
    subst hk
    have hlast : ∀ (g' : Option (Graph Str K)) (F' : Option (DataFrame K)), (∀ g1, g' = some g1 → x.Dag g1) → t - 1 ≤ 0 →
        finish x (t - 1) g' F' = .ok out → x.Dag out.graph ∧ out.intra = intraNodes out.graph ∧ out.inter = interNodes out.graph ∧
          out.warned = true ∧
          out.frame = ⟨x.nSamples, (intraNodes out.graph ++ interNodes out.graph).map fun l => (l, fun _ => 1)⟩ := by
      intro g' F' hg' ht hf
      unfold finish at hf
      split at hf
      · cases hf
      · rename_i g1
        dsimp only at hf
        rw [if_pos ht] at hf
        split at hf
        · cases hf
        · obtain rfl := Except.ok.inj hf
          exact ⟨hg' g1 rfl, rfl, rfl, rfl, rfl⟩
    rw [statLoop] at h
    split at h
    · cases h
    · cases h
    · rename_i g' ha
      obtain ⟨-, h2, h3, -⟩ := attempt_ok (hA i) ha
      have hg' : ∀ g1, g' = some g1 → x.Dag g1 := by
        rcases h2 with rfl | ⟨m, g1, rfl, hm⟩
        · exact hg
        · rintro g2 h4
          obtain rfl := Option.some.inj h4
          exact hm.dag (hA i)
      split at h
      · rename_i ht
        obtain ⟨h4, h5, h6, h7, h8⟩ := hlast g' none hg' ht (Option.some.inj h)
        exact ⟨h4, h5, h6, Or.inr ⟨h7, h8, fun j hj => by omega⟩⟩
      · rename_i ht
        obtain ⟨h4, h5, h6, h7⟩ := ih _ (by omega) hg' h rfl
        refine ⟨h4, h5, h6, ?_⟩
        rcases h7 with ⟨h7, j, h8, h9, h10, h11⟩ | ⟨h7, h8, h9⟩
        · rw [show i + 1 + j = i + (j + 1) by omega] at h9 h10
          refine Or.inl ⟨h7, j + 1, by push_cast; omega, h9, h10, fun l hl => ?_⟩
          cases l with
          | zero => exact h3 rfl
          | succ l =>
            have := h11 l (by omega)
            rwa [show i + 1 + l = i + (l + 1) by omega] at this
        · refine Or.inr ⟨h7, h8, fun j hj => ?_⟩
          cases j with
          | zero => exact h3 rfl
          | succ j =>
            have := h9 j (by push_cast at hj; omega)
            rwa [show i + 1 + j = i + (j + 1) by omega] at this
    · rename_i g' G ha
      obtain ⟨-, -, -, h3⟩ := attempt_ok (hA i) ha
      obtain ⟨g1, F, rfl, hf, hF, hl, hr, hs⟩ := h3 G rfl
      have hdag : x.Dag g1 := by
        obtain ⟨m, hm, -⟩ := hf
        exact hm.dag (hA i)
      have hg' : ∀ g2, some g1 = some g2 → x.Dag g2 := by
        rintro g2 h4
        obtain rfl := Option.some.inj h4
        exact hdag
      split at h
      · rename_i ht
        obtain ⟨h4, h5, h6, h7, h8⟩ := hlast _ _ hg' ht (Option.some.inj h)
        exact ⟨h4, h5, h6, Or.inr ⟨h7, h8, fun j hj => by omega⟩⟩
      · rename_i ht
        split at h
        · rename_i hsm
          unfold finish at h
          dsimp only at h
          rw [if_neg ht] at h
          obtain rfl := Except.ok.inj (Option.some.inj h)
          exact ⟨hdag, rfl, rfl, Or.inl ⟨rfl, 0, by push_cast; omega, hs.1 hsm, ⟨F, hF, hl, hr⟩, fun l hl => by omega⟩⟩
        · rename_i hsm
          have hno : ∀ g2, ¬ (As i).Succeeds x order g2 := by
            intro g2 hg2
            rw [← hf.unique hg2.1] at hg2
            exact hsm (hs.2 hg2)
          obtain ⟨h4, h5, h6, h7⟩ := ih _ (by omega) hg' h rfl
          refine ⟨h4, h5, h6, ?_⟩
          rcases h7 with ⟨h7, j, h8, h9, h10, h11⟩ | ⟨h7, h8, h9⟩
          · rw [show i + 1 + j = i + (j + 1) by omega] at h9 h10
            refine Or.inl ⟨h7, j + 1, by push_cast; omega, h9, h10, fun l hl => ?_⟩
            cases l with
            | zero => exact hno
            | succ l =>
              have := h11 l (by omega)
              rwa [show i + 1 + l = i + (l + 1) by omega] at this
          · refine Or.inr ⟨h7, h8, fun j hj => ?_⟩
            cases j with
            | zero => exact hno
            | succ j =>
              have := h9 j (by push_cast at hj; omega)
              rwa [show i + 1 + j = i + (j + 1) by omega] at this

theorem names_length {x : StatArgs K} {g : Graph Str K} (h : x.Dag g) : (intraNodes g ++ interNodes g).length = x.n * (1 + x.p) := by
  rw [(names_perm g).length_eq, h.count, Nat.add_comm]

/-- Errors of the loop. -/
theorem statLoop_error {x : StatArgs K} {As : ℕ → Attempt K x.n} (hA : ∀ i, (As i).Uniform) {fuel : ℕ} {order : Graph Str K → List ℕ}
    {i : ℕ} {t : ℤ} {g : Option (Graph Str K)} (hg : ∀ g1, g = some g1 → x.Dag g1) {e : GenErr}
    (h : statLoop fuel x order As i t g = some (.error e)) :
    (e = .valueError ∧ ¬ x.Valid) ∨
      (e = .typeError ∧ g = none ∧ (As i).graphs 0 = none ∧ ∀ j : ℕ, (j : ℤ) < t → (As (i + j)).graphs 0 = none) := by
  induction hk : t.toNat using Nat.strong_induction_on generalizing i t g with
  | _ k ih =>
    subst hk
    have hlast : ∀ (g' : Option (Graph Str K)) (F' : Option (DataFrame K)), (∀ g1, g' = some g1 → x.Dag g1) → t - 1 ≤ 0 →
        finish x (t - 1) g' F' = .error e → e = .typeError ∧ g' = none := by
      intro g' F' hg' ht hf
      unfold finish at hf
      split at hf
      · exact ⟨(Except.error.inj hf).symm, rfl⟩
      · rename_i g1
        dsimp only at hf
        rw [if_pos ht, if_neg (not_not.2 (names_length (hg' g1 rfl)))] at hf
        cases hf
    rw [statLoop] at h
    split at h
    · cases h
    · rename_i e' ha
      obtain rfl := Except.error.inj (Option.some.inj h)
      exact Or.inl (attempt_error (hA i) ha)
    · rename_i g' ha
      obtain ⟨h1, h2, -, -⟩ := attempt_ok (hA i) ha
      have hg' : ∀ g1, g' = some g1 → x.Dag g1 := by
        rcases h2 with rfl | ⟨m, g1, rfl, hm⟩
        · exact hg
        · rintro g2 h4
          obtain rfl := Option.some.inj h4
          exact hm.dag (hA i)
      split at h
      · rename_i ht
        obtain ⟨h4, h5⟩ := hlast g' none hg' ht (Option.some.inj h)
        refine Or.inr ⟨h4, (h1 h5).1, (h1 h5).2, fun j hj => ?_⟩
        rw [show j = 0 by omega]
        exact (h1 h5).2
      · rename_i ht
        rcases ih _ (by omega) hg' h rfl with h4 | ⟨h4, h5, h6, h7⟩
        · exact Or.inl h4
        · refine Or.inr ⟨h4, (h1 h5).1, (h1 h5).2, fun j hj => ?_⟩
          cases j with
          | zero => exact (h1 h5).2
          | succ j =>
            have := h7 j (by push_cast at hj; omega)
            rwa [show i + 1 + j = i + (j + 1) by omega] at this
    · rename_i g' G ha
      obtain ⟨-, -, -, h3⟩ := attempt_ok (hA i) ha
      obtain ⟨g1, F, rfl, ⟨m, hm, -⟩, -⟩ := h3 G rfl
      have hg' : ∀ g2, some g1 = some g2 → x.Dag g2 := by
        rintro g2 h4
        obtain rfl := Option.some.inj h4
        exact hm.dag (hA i)
      split at h
      · rename_i ht
        obtain ⟨-, h5⟩ := hlast _ _ hg' ht (Option.some.inj h)
        cases h5
      · rename_i ht
        split at h
        · unfold finish at h
          dsimp only at h
          rw [if_neg ht] at h
          cases h
        · rcases ih _ (by omega) hg' h rfl with h4 | ⟨-, h5, -⟩
          · exact Or.inl h4
          · cases h5

/-- The loop does not end only if one of its attempts does not. -/
theorem statLoop_none {x : StatArgs K} {As : ℕ → Attempt K x.n} {fuel : ℕ} {order : Graph Str K → List ℕ}
    {i : ℕ} {t : ℤ} {g : Option (Graph Str K)} (h : statLoop fuel x order As i t g = none) :
    ∃ j g', attempt fuel x order (As j) g' = none := by
  induction hk : t.toNat using Nat.strong_induction_on generalizing i t g with
  | _ k ih =>
    subst hk
    rw [statLoop] at h
    split at h
    · exact ⟨_, _, ‹_›⟩
    · cases h
    · split at h
      · cases h
      · exact ih _ (by omega) h rfl
    · split at h
      · cases h
      · split at h
        · cases h
        · exact ih _ (by omega) h rfl

/-! ### The function -/

/-- **C91**, what is returned: a dynamic DAG with the promised nodes and weights; the sorted names of its present and of its lagged nodes;
data with `n_samples` rows and, in that order, a column for each of these names.  Without a warning the graph has edges within the present
and from the past (unless a degree is 0), all data are smaller than 1000, and each present variable satisfies its structural equation in
each row.  With the warning all data are 1. -/
theorem genStationary_result {x : StatArgs K} {As : ℕ → Attempt K x.n} (hA : ∀ i, (As i).Uniform) {fuel : ℕ}
    {order : Graph Str K → List ℕ} (ho : Sorts order) {out : StatResult K} (h : genStationary fuel x order As = some (.ok out)) :
    DynamicDag x.n x.p |x.dyn.wMinIntra| |x.dyn.wMaxIntra| x.dyn.wMinInter x.dyn.wMaxInter x.dyn.decay out.graph ∧
    (out.intra.Pairwise (· ≤ ·) ∧ out.intra.Nodup ∧ ∀ v, v ∈ out.intra ↔ ∃ i < x.n, v = lagName (natStr i) 0) ∧
    (out.inter.Pairwise (· ≤ ·) ∧ out.inter.Nodup ∧ ∀ v, v ∈ out.inter ↔ ∃ i < x.n, ∃ k, 1 ≤ k ∧ k ≤ x.p ∧ v = lagName (natStr i) k) ∧
    out.frame.rows = x.nSamples ∧ out.frame.cols.map Prod.fst = out.intra ++ out.inter ∧
    (out.warned = true → ∀ v ∈ out.graph.nodes, ∀ t < x.nSamples, out.frame.get v t = some 1) ∧
    (out.warned = false → Wanted x.dyn out.graph ∧ ∃ (value : Str → ℕ → K) (i : ℕ),
      (∀ v ∈ out.graph.nodes, ∀ t < x.nSamples, out.frame.get v t = some (value v t) ∧ |value v t| < 1000) ∧
      ∀ j < x.n, ∀ t < x.nSamples, value (out.intra.getD j []) t =
        (out.graph.nodes.map fun u => value u t * weightIn out.graph u (out.intra.getD j [])).sum +
          (As i).noise (100 + (statBurnIn x.nSamples + t)) j) := by
  obtain ⟨hd, h1, h2, h3⟩ := statLoop_ok hA (fun g1 h => by cases h) h
  have hnd : (intraNodes out.graph ++ interNodes out.graph).Nodup := (names_perm _).nodup_iff.2 hd.nodup
  have hmem : ∀ v, v ∈ out.graph.nodes ↔ ∃ i < x.n, ∃ k ≤ x.p, v = lagName (natStr i) k := hd.nodes
  have hintra : ∀ v, v ∈ out.intra ↔ ∃ i < x.n, v = lagName (natStr i) 0 := by
    intro v
    rw [h1, mem_intraNodes, hmem]
    constructor
    · rintro ⟨⟨i, hi, k, hk, rfl⟩, hp⟩
      rw [isPresent_lagName (underscore_not_mem i)] at hp
      exact ⟨i, hi, by rw [hp]⟩
    · rintro ⟨i, hi, rfl⟩
      exact ⟨⟨i, hi, 0, Nat.zero_le _, rfl⟩, (isPresent_lagName (underscore_not_mem i) 0).2 rfl⟩
  have hinter : ∀ v, v ∈ out.inter ↔ ∃ i < x.n, ∃ k, 1 ≤ k ∧ k ≤ x.p ∧ v = lagName (natStr i) k := by
    intro v
    rw [h2, mem_interNodes, hmem]
    constructor
    · rintro ⟨⟨i, hi, k, hk, rfl⟩, hp⟩
      refine ⟨i, hi, k, ?_, hk, rfl⟩
      rcases Nat.eq_zero_or_pos k with rfl | h0
      · rw [(isPresent_lagName (underscore_not_mem i) 0).2 rfl] at hp
        cases hp
      · exact h0
    · rintro ⟨i, hi, k, h1, hk, rfl⟩
      refine ⟨⟨i, hi, k, hk, rfl⟩, ?_⟩
      have := (not_congr (isPresent_lagName (underscore_not_mem i) k)).2 (by omega)
      simpa using this
  have hlen : out.intra.length = x.n := by
    have hp : out.intra.Perm ((List.range x.n).map fun i => lagName (natStr i) 0) := by
      rw [List.perm_ext_iff_of_nodup]
      · intro v
        rw [hintra, List.mem_map]
        constructor
        · rintro ⟨i, hi, rfl⟩
          exact ⟨i, List.mem_range.2 hi, rfl⟩
        · rintro ⟨i, hi, rfl⟩
          exact ⟨i, List.mem_range.1 hi, rfl⟩
      · rw [h1]
        exact hnd.of_append_left
      · exact List.nodup_range.map fun a b h => natStr_inj (lagName_inj h).1
    rw [hp.length_eq]
    simp
  refine ⟨hd, ⟨?_, ?_, hintra⟩, ⟨?_, ?_, hinter⟩, ?_, ?_, ?_, ?_⟩
  · rw [h1]
    exact List.pairwise_insertionSort _ _
  · rw [h1]
    exact hnd.of_append_left
  · rw [h2]
    exact List.pairwise_insertionSort _ _
  · rw [h2]
    exact hnd.of_append_right
  · rcases h3 with ⟨-, j, -, -, ⟨F, -, -, hr⟩, -⟩ | ⟨-, hf, -⟩
    · exact hr
    · rw [hf]
  · rw [h1, h2]
    rcases h3 with ⟨-, j, -, -, ⟨F, -, hl, -⟩, -⟩ | ⟨-, hf, -⟩
    · exact hl.names
    · rw [hf, List.map_map]
      simp [Function.comp_def]
  · intro hw v hv t ht
    rcases h3 with ⟨hw', -⟩ | ⟨-, hf, -⟩
    · rw [hw] at hw'
      cases hw'
    · have hc : (v, fun _ => (1 : K)) ∈ out.frame.cols := by
        rw [hf]
        exact List.mem_map.2 ⟨v, (names_perm _).mem_iff.2 hv, rfl⟩
      refine DataFrame.get_of_mem ?_ hc (by rw [hf]; exact ht)
      rw [hf, List.map_map]
      simpa [Function.comp_def] using hnd
  · intro hw
    rcases h3 with ⟨-, j, -, hs, ⟨F, hF, hl, hr⟩, -⟩ | ⟨hw', -⟩
    swap
    · rw [hw] at hw'
      cases hw'
    obtain ⟨⟨k, hk, hwant, -⟩, -, -, F', hF', hsmall⟩ := hs
    rw [hF] at hF'
    obtain rfl := Except.ok.inj hF'
    refine ⟨hwant, ?_⟩
    have hacy := (generateDataframe_ok hd.nodup hF).2.1
    have hrows := (generateDataframe_ok hd.nodup hF).2.2.2.1
    obtain ⟨value, hv, heq⟩ := generateDataframe_equation hd.nodup (ho out.graph hacy) hF
    rw [if_neg (by unfold statBurnIn; omega)] at hrows
    refine ⟨fun v t => value v (statBurnIn x.nSamples + t), 0 + j, fun v hv' t ht => ?_, fun q hq t ht => ?_⟩
    · have h5 := hv v hv' (statBurnIn x.nSamples + t) (by omega)
      obtain ⟨y, h6, h7⟩ := hsmall v hv' t ht
      rw [h5] at h6
      rw [hl.values v hv' t (by omega), h5]
      exact ⟨rfl, by rw [← Option.some.inj h6] at h7; exact h7⟩
    · have := heq q (by rw [← h1, hlen]; exact hq) (statBurnIn x.nSamples + t) (by omega)
      rw [if_neg (by unfold statBurnIn; omega), ← h1] at this
      simpa using this

/-- **C91**, which attempt counts: there is no warning iff one of the first `max_data_gen_trials - 1` attempts succeeds - the last
attempt never counts - and then graph and data are those of the first that does. -/
theorem genStationary_attempts {x : StatArgs K} {As : ℕ → Attempt K x.n} (hA : ∀ i, (As i).Uniform) {fuel : ℕ}
    {order : Graph Str K → List ℕ} {out : StatResult K} (h : genStationary fuel x order As = some (.ok out)) :
    (out.warned = false ↔ ∃ i : ℕ, (i : ℤ) + 1 < x.trials ∧ ∃ g, (As i).Succeeds x order g) ∧
    (out.warned = false → ∃ i : ℕ, (i : ℤ) + 1 < x.trials ∧ (As i).Succeeds x order out.graph ∧
      (∀ l < i, ∀ g, ¬ (As l).Succeeds x order g) ∧
      ∃ F, generateDataframe out.graph (x.nSamples + statBurnIn x.nSamples) 100 x.semType none (As i).noise (order out.graph) = .ok F ∧
        LastRows out.graph F (statBurnIn x.nSamples) out.frame) := by
  obtain ⟨-, -, -, h3⟩ := statLoop_ok hA (fun g1 h => by cases h) h
  simp only [Nat.zero_add] at h3
  rcases h3 with ⟨hw, j, h4, h5, ⟨F, hF, hl, -⟩, h6⟩ | ⟨hw, -, h4⟩
  · exact ⟨⟨fun _ => ⟨j, h4, _, h5⟩, fun _ => hw⟩, fun _ => ⟨j, h4, h5, h6, F, hF, hl⟩⟩
  · refine ⟨⟨fun h => ?_, ?_⟩, fun h => ?_⟩
    · rw [hw] at h
      cases h
    · rintro ⟨i, hi, g, hg⟩
      exact absurd hg (h4 i hi g)
    · rw [hw] at h
      cases h

/-- A single attempt is never enough. -/
theorem genStationary_single {x : StatArgs K} {As : ℕ → Attempt K x.n} (hA : ∀ i, (As i).Uniform) {fuel : ℕ}
    {order : Graph Str K → List ℕ} (hx : x.trials ≤ 1) {out : StatResult K} (h : genStationary fuel x order As = some (.ok out)) :
    out.warned = true := by
  by_contra hw
  obtain ⟨i, hi, -⟩ := (genStationary_attempts hA h).1.1 (by simpa using hw)
  omega

/-- **C91**, errors: `ValueError` for unsuitable arguments, and `TypeError` if every attempt fails before there is a graph. -/
theorem genStationary_error {x : StatArgs K} {As : ℕ → Attempt K x.n} (hA : ∀ i, (As i).Uniform) {fuel : ℕ}
    {order : Graph Str K → List ℕ} {e : GenErr} (h : genStationary fuel x order As = some (.error e)) :
    (e = .valueError ∧ ¬ x.Valid) ∨
      (e = .typeError ∧ (As 0).graphs 0 = none ∧ ∀ i : ℕ, (i : ℤ) < x.trials → (As i).graphs 0 = none) := by
  rcases statLoop_error hA (fun g1 h => by cases h) h with h | ⟨h1, -, h2, h3⟩
  · exact Or.inl h
  · exact Or.inr ⟨h1, h2, fun i hi => by simpa using h3 i hi⟩

/-- **C91**, termination: with suitable arguments, if every attempt ends and the first makes a graph, the function returns. -/
theorem genStationary_total {x : StatArgs K} (hv : x.Valid) {As : ℕ → Attempt K x.n} (hA : ∀ i, (As i).Uniform) {fuel : ℕ}
    (hE : ∀ i, (As i).Ends x fuel) (h0 : (As 0).graphs 0 ≠ none) (order : Graph Str K → List ℕ) :
    ∃ out, genStationary fuel x order As = some (.ok out) := by
  cases h : genStationary fuel x order As with
  | none =>
    obtain ⟨j, g', hn⟩ := statLoop_none h
    rw [attempt_none (hA j)] at hn
    obtain ⟨k, hk, h1 | ⟨g, h1, h2⟩⟩ := hE j
    · obtain ⟨g, ⟨r, r', h2, -⟩, -⟩ := hn k hk
      rw [h1] at h2
      cases h2
    · obtain ⟨g', h3, h4⟩ := hn k hk
      rw [← h1.unique h3] at h4
      exact absurd h2 h4
  | some r =>
    cases r with
    | ok out => exact ⟨out, rfl⟩
    | error e =>
      rcases genStationary_error hA h with ⟨-, h1⟩ | ⟨-, h1, -⟩
      · exact absurd hv h1
      · exact absurd h1 h0

/-- **C91**, divergence: with `p = 0` and degrees other than 0 the function does not return, unless the computation of a graph fails:
there are no edges from the past, and a graph without them is never accepted. -/
theorem genStationary_diverges {x : StatArgs K} (hv : x.Valid) (hp : x.p = 0) (h1 : x.dyn.degreeIntra ≠ 0) (h2 : x.dyn.degreeInter ≠ 0)
    {As : ℕ → Attempt K x.n} (hA : ∀ i, (As i).Uniform) (hg : ∀ k, (As 0).graphs k ≠ none) (order : Graph Str K → List ℕ) (fuel : ℕ) :
    genStationary fuel x order As = none := by
  unfold genStationary
  rw [statLoop, (attempt_none (hA 0)).2]
  intro l _
  obtain ⟨⟨r, r'⟩, hr⟩ := Option.ne_none_iff_exists'.1 (hg l)
  obtain ⟨g, hgr⟩ := (generateDynamic_total x.n x.p x.dyn r r').1.2 ⟨hv.1, hv.2.1, hv.2.2.1, hv.2.2.2.1, hv.2.2.2.2.1⟩
  have hm : (As 0).Makes x l g := ⟨r, r', hr, hgr⟩
  refine ⟨g, hm, ?_⟩
  rintro (⟨-, i, k, j, hk, hmem⟩ | h | h)
  · obtain ⟨e, he, hpair⟩ := List.mem_map.1 hmem
    obtain ⟨i', -, k', hk', j', -, h3, -⟩ := (hm.dag (hA 0)).edges e he
    have := (Prod.mk.inj hpair).1
    rw [h3] at this
    have := (lagName_inj this).2
    omega
  · exact h1 h
  · exact h2 h

end

end Verif.Generators
