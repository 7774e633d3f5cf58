import Verif.Generators.Simulate
import Verif.Generators.DynamicProps

/-!
# Data from a dynamic structure (C59, C75)
-/

namespace Verif.Generators

open Verif.Notears Verif.Str
open Verif.Dynotears (lagName lagName_inj)

/-! ### Specification -/

/-- The nodes of a dynamic graph: `{u}_lag{k}` for the given variables and all lags up to `p`. -/
structure Lagged {K : Type} (vars : List Str) (p : ℕ) (g : Graph Str K) : Prop where
  distinct : vars.Nodup
  nodup : g.nodes.Nodup
  nodes : ∀ v, v ∈ g.nodes ↔ ∃ u ∈ vars, ∃ k ≤ p, v = lagName u k

section
variable {K : Type} [Field K] [LinearOrder K]

/-! ### One row -/

theorem sum_filter_zero {α : Type} (l : List α) (q : α → Bool) (f : α → K) (h : ∀ a ∈ l, q a = false → f a = 0) :
    ((l.filter q).map f).sum = (l.map f).sum := by
  induction l with
  | nil => rfl
  | cons a l ih =>
    have ih := ih fun b hb => h b (List.mem_cons_of_mem _ hb)
    rw [List.filter_cons]
    split
    · rw [List.map_cons, List.map_cons, List.sum_cons, List.sum_cons, ih]
    · rename_i hq
      rw [List.map_cons, List.sum_cons, h a List.mem_cons_self (by simpa using hq), zero_add, ih]

theorem newValue_eq (d R : ℕ) (w a : ℕ → ℕ → K) (drift noise lags x : ℕ → K) (j : ℕ) :
    newValue d R w a drift noise lags x j = drift j + ((List.range d).map fun i => x i * w i j).sum +
      ((List.range R).map fun q => lags q * a q j).sum + noise j := by
  unfold newValue predecessors
  rw [sum_filter_zero, sum_filter_zero]
  · intro q _ hq
    have : a q j = 0 := by simpa using hq
    rw [this, mul_zero]
  · intro q _ hq
    have : w q j = 0 := by simpa using hq
    rw [this, mul_zero]

/-- Row `t`, in terms of itself. -/
theorem simulate_row {d R : ℕ} {w a : ℕ → ℕ → K} {drift : ℕ → K} {noise : ℕ → ℕ → K} {order : List ℕ}
    (ho : IsTopo (List.range d) (intraEdges d w) order)
    (hself : ∀ j < d, w j j = 0) (t : ℕ) {j : ℕ} (hj : j < d) :
    (simulate d R w a drift noise order t).1 j = drift j +
      ((List.range d).map fun i => (simulate d R w a drift noise order t).1 i * w i j).sum +
      ((List.range R).map fun q => (simulate d R w a drift noise order t).2 q * a q j).sum + noise t j := by
  rw [← newValue_eq]
  have key : ∀ (noise lags : ℕ → K),
      assignAll (newValue d R w a drift noise lags) order (fun _ => 0) j =
        newValue d R w a drift noise lags (assignAll (newValue d R w a drift noise lags) order fun _ => 0) j := by
    intro noise lags
    refine assignAll_fixed (dep := fun i j => (i, j) ∈ intraEdges d w ∨ (w i j ≠ 0 ∧ i < d ∧ ¬ j < d)) ?_ ho.nodup ?_ ?_ _
      (ho.perm.mem_iff.2 (List.mem_range.2 hj))
    · intro x y j h
      unfold newValue predecessors
      congr 3
      apply congrArg
      apply List.map_congr_left
      intro i hi
      rw [List.mem_filter, List.mem_range] at hi
      have hw : w i j ≠ 0 := by simpa using hi.2
      rw [h i]
      by_cases hjd : j < d
      · left
        rw [intraEdges, List.mem_filter]
        exact ⟨mem_cells.2 ⟨hi.1, hjd⟩, by simpa using hw⟩
      · exact Or.inr ⟨hw, hi.1, hjd⟩
    · rintro j hj (h | h)
      · rw [intraEdges, List.mem_filter] at h
        have h1 := mem_cells.1 h.1
        have h2 : w j j ≠ 0 := by simpa using h.2
        exact h2 (hself j h1.1)
      · exact h.2.2 (List.mem_range.1 (ho.perm.mem_iff.1 hj))
    · refine (List.pairwise_iff_forall_sublist.2 ?_)
      intro a b hab
      rintro (h | h)
      · exact (List.pairwise_iff_forall_sublist.1 ho.forward hab) h
      · exact h.2.2 (List.mem_range.1 (ho.perm.mem_iff.1 (hab.subset (by simp))))
  cases t with
  | zero => exact key _ _
  | succ t => exact key _ _

/-- The lagged part of row `t`: earlier rows, zeros before the beginning. -/
theorem simulate_lags {d R : ℕ} {w a : ℕ → ℕ → K} {drift : ℕ → K} {noise : ℕ → ℕ → K} {order : List ℕ} (t k : ℕ)
    {i : ℕ} (hi : i < d) : (simulate d R w a drift noise order t).2 (k * d + i) =
      if k < t then (simulate d R w a drift noise order (t - 1 - k)).1 i else 0 := by
  induction t generalizing k with
  | zero => rfl
  | succ t ih =>
    change (if k * d + i < d then _ else _) = _
    cases k with
    | zero => simp [hi]
    | succ k =>
      have h1 : ¬ (k + 1) * d + i < d := by
        rw [Nat.succ_mul]
        omega
      have h2 : (k + 1) * d + i - d = k * d + i := by
        rw [Nat.succ_mul]
        omega
      rw [if_neg h1, h2, ih]
      by_cases h : k < t
      · rw [if_pos h, if_pos (by omega), show t + 1 - 1 - (k + 1) = t - 1 - k by omega]
      · rw [if_neg h, if_neg (by omega)]

/-! ### The data frame -/

theorem intraNodes_perm (g : Graph Str K) : (intraNodes g).Perm (g.nodes.filter isPresent) := List.perm_insertionSort _ _

theorem interNodes_perm (g : Graph Str K) : (interNodes g).Perm (g.nodes.filter fun el => !isPresent el) :=
  List.perm_insertionSort _ _

theorem getD_mem {l : List Str} {i : ℕ} (h : i < l.length) : l.getD i [] ∈ l := by
  rw [List.getD_eq_getElem _ _ h]
  exact List.getElem_mem h

theorem getD_inj {l : List Str} (hl : l.Nodup) {i j : ℕ} (hi : i < l.length) (hj : j < l.length)
    (h : l.getD i [] = l.getD j []) : i = j := by
  rw [List.getD_eq_getElem _ _ hi, List.getD_eq_getElem _ _ hj] at h
  exact (hl.getElem_inj_iff).1 h

/-- Looking up a column among columns of distinct names. -/
theorem find_col {cols : List (Str × (ℕ → K))} (hnd : (cols.map Prod.fst).Nodup) {c : Str × (ℕ → K)} (hc : c ∈ cols) :
    (cols.find? fun x => x.1 = c.1) = some c := by
  induction cols with
  | nil => exact absurd hc (by simp)
  | cons x cols ih =>
    rw [List.map_cons, List.nodup_cons] at hnd
    rw [List.find?_cons]
    rcases List.mem_cons.1 hc with rfl | hc
    · simp
    · have : ¬ x.1 = c.1 := by
        intro h
        exact hnd.1 (List.mem_map.2 ⟨c, hc, h.symm⟩)
      simp only [this, decide_false]
      exact ih hnd.2 hc

/-- What the frame contains. -/
theorem generateDataframe_ok {g : Graph Str K} (hg : g.nodes.Nodup) {n burnIn : ℕ} {semType : String} {drift : Option (ℕ → K)}
    {noise : ℕ → ℕ → K} {order : List ℕ} {F : DataFrame K}
    (h : generateDataframe g n burnIn semType drift noise order = .ok F) :
    let w := fun i j => weightIn g ((intraNodes g).getD i []) ((intraNodes g).getD j [])
    let a := fun q j => weightIn g ((interNodes g).getD q []) ((intraNodes g).getD j [])
    let d := (intraNodes g).length
    let X := simulate d (interNodes g).length w a (drift.getD fun _ => 0) noise order
    d ≠ 0 ∧ Verif.Graph.Acyclic (intraEdges d w) ∧ (interNodes g).length % d = 0 ∧
    F.rows = (if n = 0 then burnIn else n) ∧
    F.cols.map Prod.fst = intraNodes g ++ interNodes g ∧
    (∀ j < d, ∀ t < F.rows, F.get ((intraNodes g).getD j []) t = some ((X ((if n = 0 then 0 else burnIn) + t)).1 j)) ∧
    (∀ q < (interNodes g).length, ∀ t < F.rows,
      F.get ((interNodes g).getD q []) t = some ((X ((if n = 0 then 0 else burnIn) + t)).2 q)) := by
  intro w a d X
  unfold generateDataframe at h
  split at h
  · exact absurd h (by simp)
  · dsimp only at h
    split at h
    · exact absurd h (by simp)
    · rename_i hd
      split at h
      · exact absurd h (by simp)
      · rename_i hdag
        split at h
        · exact absurd h (by simp)
        · rename_i hmod
          injection h with h
          have hdag : Verif.Graph.Acyclic (intraEdges d w) := by
            rw [← Verif.Graph.isDag_iff (List.range d)]
            · exact Bool.eq_true_of_not_eq_false hdag
            · rintro ⟨i, j⟩ he
              rw [intraEdges, List.mem_filter] at he
              simpa using mem_cells.1 he.1
          have hlabels : F.cols.map Prod.fst = intraNodes g ++ interNodes g := by
            rw [← h]
            simp only [List.map_append, List.map_map]
            congr 1
            · apply List.ext_getElem
              · simp
              · intro i h1 h2
                simp only [List.getElem_map, List.getElem_range, Function.comp]
                exact List.getD_eq_getElem _ _ h2
            · apply List.ext_getElem
              · simp
              · intro i h1 h2
                simp only [List.getElem_map, List.getElem_range, Function.comp]
                exact List.getD_eq_getElem _ _ h2
          have hnd : (F.cols.map Prod.fst).Nodup := by
            rw [hlabels, List.nodup_append]
            refine ⟨(intraNodes_perm g).nodup_iff.2 (hg.filter _), (interNodes_perm g).nodup_iff.2 (hg.filter _), ?_⟩
            rintro x hx y hy rfl
            rw [(intraNodes_perm g).mem_iff, List.mem_filter] at hx
            rw [(interNodes_perm g).mem_iff, List.mem_filter] at hy
            simp [hx.2] at hy
          refine ⟨hd, hdag, by simpa using hmod, ?_, hlabels, ?_, ?_⟩
          · rw [← h]
            dsimp only
            split <;> omega
          · intro j hj t ht
            have := find_col (c := ((intraNodes g).getD j [], fun t => (X ((if n = 0 then 0 else burnIn) + t)).1 j)) hnd (by
              rw [← h]
              exact List.mem_append.2 (Or.inl (List.mem_map.2 ⟨j, List.mem_range.2 hj, rfl⟩)))
            unfold DataFrame.get
            rw [if_pos ht, this]
            rfl
          · intro q hq t ht
            have := find_col (c := ((interNodes g).getD q [], fun t => (X ((if n = 0 then 0 else burnIn) + t)).2 q)) hnd (by
              rw [← h]
              exact List.mem_append.2 (Or.inr (List.mem_map.2 ⟨q, List.mem_range.2 hq, rfl⟩)))
            unfold DataFrame.get
            rw [if_pos ht, this]
            rfl

theorem range_getD_map (l : List Str) (f : Str → K) :
    ((List.range l.length).map fun i => f (l.getD i [])) = l.map f := by
  apply List.ext_getElem
  · simp
  · intro i h1 h2
    rw [List.length_map] at h2
    simp only [List.getElem_map, List.getElem_range, List.getD_eq_getElem _ _ h2]

/-- **C75.** In the data every present variable satisfies its structural equation in every row: the sum over all
nodes of the graph of the value in the same row times the weight of the edge, plus drift and noise. -/
theorem generateDataframe_equation {g : Graph Str K} (hg : g.nodes.Nodup) {n burnIn : ℕ} {semType : String}
    {drift : Option (ℕ → K)} {noise : ℕ → ℕ → K} {order : List ℕ}
    (ho : IsTopo (List.range (intraNodes g).length) (intraEdges (intraNodes g).length fun i j =>
      weightIn g ((intraNodes g).getD i []) ((intraNodes g).getD j [])) order)
    {F : DataFrame K} (h : generateDataframe g n burnIn semType drift noise order = .ok F) :
    ∃ value : Str → ℕ → K, (∀ v ∈ g.nodes, ∀ t < F.rows, F.get v t = some (value v t)) ∧
      ∀ j < (intraNodes g).length, ∀ t < F.rows, value ((intraNodes g).getD j []) t =
        (drift.getD fun _ => 0) j + (g.nodes.map fun u => value u t * weightIn g u ((intraNodes g).getD j [])).sum +
          noise ((if n = 0 then 0 else burnIn) + t) j := by
  obtain ⟨hd, hdag, hmod, hrows, hcols, hX, hL⟩ := generateDataframe_ok hg h
  refine ⟨fun v t => (F.get v t).getD 0, ?_, ?_⟩
  · intro v hv t ht
    by_cases hp : isPresent v = true
    · obtain ⟨j, hj, rfl⟩ := List.mem_iff_getElem.1 ((intraNodes_perm g).mem_iff.2 (List.mem_filter.2 ⟨hv, hp⟩))
      have := hX j hj t ht
      rw [List.getD_eq_getElem _ _ hj] at this
      dsimp only
      rw [this]
      rfl
    · obtain ⟨j, hj, rfl⟩ := List.mem_iff_getElem.1 ((interNodes_perm g).mem_iff.2 (List.mem_filter.2 ⟨hv, by simpa using hp⟩))
      have := hL j hj t ht
      rw [List.getD_eq_getElem _ _ hj] at this
      dsimp only
      rw [this]
      rfl
  · intro j hj t ht
    have hself : ∀ j < (intraNodes g).length,
        weightIn g ((intraNodes g).getD j []) ((intraNodes g).getD j []) = 0 := by
      intro j hj
      by_contra hc
      refine hdag j (.single ?_)
      unfold Verif.Graph.EdgeRel intraEdges
      rw [List.mem_filter]
      exact ⟨mem_cells.2 ⟨hj, hj⟩, by simpa using hc⟩
    have hrow := simulate_row (R := (interNodes g).length) (a := fun q j => weightIn g ((interNodes g).getD q []) ((intraNodes g).getD j []))
      (drift := drift.getD fun _ => 0) (noise := noise) ho hself ((if n = 0 then 0 else burnIn) + t) hj
    dsimp only
    rw [hX j hj t ht, Option.getD_some, hrow]
    have h1 : g.nodes.Perm (intraNodes g ++ interNodes g) :=
      (List.filter_append_perm isPresent g.nodes).symm.trans
        ((intraNodes_perm g).symm.append (interNodes_perm g).symm)
    rw [(h1.map _).sum_eq, List.map_append, List.sum_append, ← range_getD_map (intraNodes g), ← range_getD_map (interNodes g)]
    rw [← add_assoc]
    congr 3
    · apply congrArg
      apply List.map_congr_left
      intro i hi
      rw [hX i (List.mem_range.1 hi) t ht]
      rfl
    · apply List.map_congr_left
      intro i hi
      rw [hL i (List.mem_range.1 hi) t ht]
      rfl

/-- **C59**, by position: the `k`-th block of lagged columns holds, in the order of the present columns, the values
of `k` rows before. -/
theorem generateDataframe_positions {g : Graph Str K} (hg : g.nodes.Nodup) {n burnIn : ℕ} {semType : String}
    {drift : Option (ℕ → K)} {noise : ℕ → ℕ → K} {order : List ℕ}
    {F : DataFrame K} (h : generateDataframe g n burnIn semType drift noise order = .ok F) {k j t : ℕ}
    (hj : j < (intraNodes g).length) (hk : k * (intraNodes g).length + j < (interNodes g).length)
    (ht : t + (k + 1) < F.rows) :
    F.get ((interNodes g).getD (k * (intraNodes g).length + j) []) (t + (k + 1)) =
      F.get ((intraNodes g).getD j []) t := by
  obtain ⟨hd, hdag, hmod, hrows, hcols, hX, hL⟩ := generateDataframe_ok hg h
  rw [hX j hj t (by omega), hL _ hk _ ht, simulate_lags _ _ hj, if_pos (by omega),
    show (if n = 0 then 0 else burnIn) + (t + (k + 1)) - 1 - k = (if n = 0 then 0 else burnIn) + t by omega]

/-! ### The order of the names -/

theorem lag_order (s t : Str) {u v : Str} (hu : '_' ∉ u) (hv : '_' ∉ v) :
    u ++ '_' :: s < v ++ '_' :: s ↔ u ++ '_' :: t < v ++ '_' :: t := by
  induction u generalizing v with
  | nil =>
    cases v with
    | nil => simp
    | cons c v =>
      have : '_' ≠ c := by
        rintro rfl
        exact hv List.mem_cons_self
      simp [List.cons_lt_cons_iff, this]
  | cons c u ih =>
    have hc : c ≠ '_' := by
      rintro rfl
      exact hu List.mem_cons_self
    cases v with
    | nil => simp [List.cons_lt_cons_iff, hc]
    | cons c' v =>
      simp only [List.cons_append, List.cons_lt_cons_iff]
      rw [ih (fun h => hu (by simp [h])) (fun h => hv (by simp [h]))]

theorem lagName_eq (u : Str) (k : ℕ) : lagName u k = u ++ '_' :: ('l' :: 'a' :: 'g' :: natStr k) := by
  simp [lagName]

theorem lagName_le_iff {u v : Str} (hu : '_' ∉ u) (hv : '_' ∉ v) (k l : ℕ) :
    lagName u k ≤ lagName v k ↔ lagName u l ≤ lagName v l := by
  rw [← not_lt, ← not_lt, lagName_eq, lagName_eq, lagName_eq, lagName_eq,
    lag_order ('l' :: 'a' :: 'g' :: natStr k) ('l' :: 'a' :: 'g' :: natStr l) hv hu]

theorem natStr_zero_head {k : ℕ} {s : Str} (h : natStr k = '0' :: s) : k = 0 := by
  induction k using Nat.strongRecOn generalizing s with
  | ind k ih =>
    by_cases hk : k < 10
    · rw [natStr, Nat.toDigits_of_lt_base hk] at h
      have h0 : Nat.digitChar k = '0' := (List.cons.inj h).1
      match k, hk with
      | 0, _ => rfl
      | 1, _ | 2, _ | 3, _ | 4, _ | 5, _ | 6, _ | 7, _ | 8, _ | 9, _ => exact absurd h0 (by decide)
    · rw [natStr, Nat.toDigits_of_base_le (by decide) (by omega)] at h
      have hne : Nat.toDigits 10 (k / 10) ≠ [] := Nat.toDigits_ne_nil
      obtain ⟨c, s', hs⟩ := List.exists_cons_of_ne_nil hne
      rw [hs, List.cons_append] at h
      have h1 := (List.cons.inj h).1
      subst h1
      have := ih (k / 10) (by omega) (s := s') hs
      omega

theorem isPresent_lagName {u : Str} (hu : '_' ∉ u) (k : ℕ) : isPresent (lagName u k) = true ↔ k = 0 := by
  unfold isPresent
  rw [decide_eq_true_eq]
  constructor
  · rintro ⟨a, b, h⟩
    rw [lagName_eq] at h
    have h : a ++ '_' :: ('l' :: 'a' :: 'g' :: '0' :: b) = u ++ '_' :: ('l' :: 'a' :: 'g' :: natStr k) := by
      rw [← h]
      simp
    have h1 : '_' ∉ 'l' :: 'a' :: 'g' :: natStr k := by
      have := Verif.Dynotears.underscore_not_mem k
      simp [this]
    have h2 := (List.append_cons_inj_of_notMem hu h1).1 h.symm
    have h3 := h2.2.2
    simp only [List.cons.injEq, true_and] at h3
    exact natStr_zero_head h3
  · rintro rfl
    exact ⟨u, [], by simp [lagName, natStr, Nat.toDigits_zero]⟩

/-- The present nodes in the order used by the code. -/
theorem intraNodes_lagged {vars : List Str} {p : ℕ} {g : Graph Str K} (hg : Lagged vars p g) (hv : ∀ u ∈ vars, '_' ∉ u) :
    ∃ vs : List Str, vs.Perm vars ∧ (∀ k, (vs.map fun u => lagName u k).Pairwise (· ≤ ·)) ∧
      intraNodes g = vs.map fun u => lagName u 0 := by
  refine ⟨vars.insertionSort fun u v => lagName u 0 ≤ lagName v 0, List.perm_insertionSort _ _, ?_, ?_⟩
  · intro k
    rw [List.map_insertionSort _ (· ≤ ·) (fun u => lagName u k)]
    · exact List.pairwise_insertionSort _ _
    · intro u hu v hv'
      exact lagName_le_iff (hv u hu) (hv v hv') 0 k
  · rw [List.map_insertionSort _ (· ≤ ·) (fun u => lagName u 0) _ (fun _ _ _ _ => Iff.rfl)]
    refine List.Perm.eq_of_pairwise (le := (· ≤ ·)) (fun a b _ _ => le_antisymm) (List.pairwise_insertionSort _ _) (List.pairwise_insertionSort _ _) ?_
    refine (List.perm_insertionSort _ _).trans (List.Perm.trans ?_ (List.perm_insertionSort _ _).symm)
    rw [List.perm_ext_iff_of_nodup (hg.nodup.filter _) (hg.distinct.map fun a b h => (lagName_inj h).1)]
    intro x
    rw [List.mem_filter, hg.nodes, List.mem_map]
    constructor
    · rintro ⟨⟨u, hu, k, hk, rfl⟩, hx⟩
      rw [isPresent_lagName (hv u hu)] at hx
      exact ⟨u, hu, by rw [hx]⟩
    · rintro ⟨u, hu, rfl⟩
      exact ⟨⟨u, hu, 0, by omega, rfl⟩, (isPresent_lagName (hv u hu) 0).2 rfl⟩

/-- The lagged nodes are the lagged names, sorted. -/
theorem interNodes_lagged {vars : List Str} {p : ℕ} {g : Graph Str K} (hg : Lagged vars p g) (hv : ∀ u ∈ vars, '_' ∉ u)
    {l : List Str} (hl : l.Nodup) (hmem : ∀ x, x ∈ l ↔ ∃ u ∈ vars, ∃ k, 1 ≤ k ∧ k ≤ p ∧ x = lagName u k)
    (hs : l.Pairwise (· ≤ ·)) : interNodes g = l := by
  refine List.Perm.eq_of_pairwise (le := (· ≤ ·)) (fun a b _ _ => le_antisymm) (List.pairwise_insertionSort _ _) hs ?_
  refine (List.perm_insertionSort _ _).trans ?_
  rw [List.perm_ext_iff_of_nodup (hg.nodup.filter _) hl]
  intro x
  rw [List.mem_filter, hg.nodes, hmem]
  constructor
  · rintro ⟨⟨u, hu, k, hk, rfl⟩, hx⟩
    have : isPresent (lagName u k) ≠ true := by simpa using hx
    rw [ne_eq, isPresent_lagName (hv u hu)] at this
    exact ⟨u, hu, k, by omega, hk, rfl⟩
  · rintro ⟨u, hu, k, h1, hk, rfl⟩
    refine ⟨⟨u, hu, k, hk, rfl⟩, ?_⟩
    have := (not_congr (isPresent_lagName (hv u hu) k)).2 (by omega)
    simpa using this

/-- Data can be made from every acyclic dynamic graph, and there is a topological order. -/
theorem generateDataframe_total {vars : List Str} {p : ℕ} {g : Graph Str K} (hg : Lagged vars p g)
    (hv : ∀ u ∈ vars, '_' ∉ u) (hne : vars ≠ []) (ha : Verif.Graph.Acyclic (pairs g)) (n burnIn : ℕ) {semType : String}
    (hs : semType ∈ ["linear-gauss", "linear-exp", "linear-gumbel"]) (drift : Option (ℕ → K)) (noise : ℕ → ℕ → K) :
    ∃ order, IsTopo (List.range (intraNodes g).length) (intraEdges (intraNodes g).length fun i j =>
      weightIn g ((intraNodes g).getD i []) ((intraNodes g).getD j [])) order ∧
    ∃ F, generateDataframe g n burnIn semType drift noise order = .ok F := by
  obtain ⟨vs, hperm, -, hintra⟩ := intraNodes_lagged hg hv
  have hlen : (intraNodes g).length = vars.length := by rw [hintra, List.length_map, hperm.length_eq]
  have hmem : ∀ e ∈ intraEdges (intraNodes g).length (fun i j =>
      weightIn g ((intraNodes g).getD i []) ((intraNodes g).getD j [])),
      e.1 ∈ List.range (intraNodes g).length ∧ e.2 ∈ List.range (intraNodes g).length := by
    rintro ⟨i, j⟩ he
    rw [intraEdges, List.mem_filter] at he
    simpa using mem_cells.1 he.1
  have hac : Verif.Graph.Acyclic (intraEdges (intraNodes g).length fun i j =>
      weightIn g ((intraNodes g).getD i []) ((intraNodes g).getD j [])) := by
    intro i hi
    refine ha ((intraNodes g).getD i []) (hi.lift (fun i => (intraNodes g).getD i []) ?_)
    intro i j hij
    unfold Verif.Graph.EdgeRel intraEdges at hij
    rw [List.mem_filter] at hij
    have hw : weightIn g ((intraNodes g).getD i []) ((intraNodes g).getD j []) ≠ 0 := by simpa using hij.2
    unfold weightIn at hw
    split at hw
    · rename_i e he
      have h1 := List.find?_some he
      have h2 := List.mem_of_find?_eq_some he
      simp only [decide_eq_true_eq] at h1
      refine List.mem_map.2 ⟨e, h2, ?_⟩
      rw [h1.1, h1.2]
    · exact absurd rfl hw
  obtain ⟨order, ho⟩ := exists_topo List.nodup_range hmem hac
  have hinter : (interNodes g).length = vars.length * p := by
    have h1 : g.nodes.Perm ((List.range (p + 1)).flatMap fun k => vars.map fun u => lagName u k) := by
      rw [List.perm_ext_iff_of_nodup hg.nodup]
      · intro x
        rw [hg.nodes]
        simp only [List.mem_flatMap, List.mem_range, List.mem_map]
        constructor
        · rintro ⟨u, hu, k, hk, rfl⟩
          exact ⟨k, by omega, u, hu, rfl⟩
        · rintro ⟨k, hk, u, hu, rfl⟩
          exact ⟨u, hu, k, by omega, rfl⟩
      · rw [List.nodup_flatMap]
        refine ⟨fun k _ => hg.distinct.map fun a b h => (lagName_inj h).1, List.nodup_range.imp ?_⟩
        intro a b hab
        simp only [Function.onFun, List.disjoint_left, List.mem_map]
        rintro _ ⟨x, -, rfl⟩ ⟨y, -, h⟩
        exact hab (lagName_inj h).2.symm
    have h2 := ((List.filter_append_perm isPresent g.nodes).symm.trans
        ((intraNodes_perm g).symm.append (interNodes_perm g).symm)).length_eq
    have h3 := h1.length_eq
    rw [List.length_append, hlen, h3] at h2
    simp only [List.length_flatMap, List.length_map, List.map_const', List.sum_replicate, List.length_range, smul_eq_mul] at h2
    rw [Nat.succ_mul, Nat.mul_comm p] at h2
    omega
  refine ⟨order, ho, ?_⟩
  unfold generateDataframe
  rw [if_neg (not_not.2 hs)]
  dsimp only
  rw [if_neg, if_neg, if_neg]
  · exact ⟨_, rfl⟩
  · rw [hinter, hlen]
    simp
  · rw [(Verif.Graph.isDag_iff _ _ hmem).2 hac]
    decide
  · rw [hlen]
    simpa using hne

/-- **C59**, partial: with a single lag, or with a single variable and at most 9 lags, the column of variable `u` at
lag `k` holds the value of `u` of `k` rows before.  (Names contain no underscore.)  In general this is false, see
`generateDataframe_mislabelled`: the columns are labelled in alphabetical order, variable by variable, but filled
lag by lag. -/
theorem generateDataframe_lags_partial {vars : List Str} {p : ℕ} {g : Graph Str K} (hg : Lagged vars p g)
    (hv : ∀ u ∈ vars, '_' ∉ u) (hp : p = 1 ∨ vars.length = 1 ∧ p ≤ 9) {n burnIn : ℕ} {semType : String}
    {drift : Option (ℕ → K)} {noise : ℕ → ℕ → K} {order : List ℕ} {F : DataFrame K}
    (h : generateDataframe g n burnIn semType drift noise order = .ok F) {u : Str} (hu : u ∈ vars) {k t : ℕ}
    (hk1 : 1 ≤ k) (hkp : k ≤ p) (ht : t + k < F.rows) :
    F.get (lagName u k) (t + k) = F.get (lagName u 0) t := by
  obtain ⟨vs, hperm, hsorted, hintra⟩ := intraNodes_lagged hg hv
  obtain ⟨i, hi, rfl⟩ := List.mem_iff_getElem.1 (hperm.mem_iff.2 hu)
  have hnd : vs.Nodup := hperm.nodup_iff.2 hg.distinct
  have hpos := fun hk => generateDataframe_positions (k := k - 1) (j := i) (t := t) hg.nodup h
    (by rw [hintra]; simpa using hi) hk (by omega)
  rw [hintra] at hpos
  rw [Nat.sub_add_cancel hk1] at hpos
  have h0 : (vs.map fun u => lagName u 0).getD i [] = lagName vs[i] 0 := by
    rw [List.getD_eq_getElem _ _ (by simpa using hi), List.getElem_map]
  rw [h0, List.length_map] at hpos
  rcases hp with rfl | ⟨hlen, hp⟩
  · have hk : k = 1 := by omega
    subst hk
    have hinter : interNodes g = vs.map fun u => lagName u 1 := by
      refine interNodes_lagged hg hv (hnd.map fun a b h => (lagName_inj h).1) ?_ (hsorted 1)
      intro x
      rw [List.mem_map]
      constructor
      · rintro ⟨u, hu, rfl⟩
        exact ⟨u, hperm.mem_iff.1 hu, 1, le_rfl, le_rfl, rfl⟩
      · rintro ⟨u, hu, k, h1, h2, rfl⟩
        exact ⟨u, hperm.mem_iff.2 hu, by rw [show k = 1 by omega]⟩
    rw [hinter] at hpos
    have h1 : (vs.map fun u => lagName u 1).getD ((1 - 1) * vs.length + i) [] = lagName vs[i] 1 := by
      rw [Nat.sub_self, Nat.zero_mul, Nat.zero_add, List.getD_eq_getElem _ _ (by simpa using hi), List.getElem_map]
    rw [h1] at hpos
    exact hpos (by simpa using hi)
  · have hlen' : vs.length = 1 := hperm.length_eq.trans hlen
    have hi0 : i = 0 := by omega
    subst hi0
    have hinter : interNodes g = (List.range p).map fun l => lagName vs[0] (l + 1) := by
      refine interNodes_lagged hg hv (List.nodup_range.map fun a b h => Nat.succ_injective (lagName_inj h).2) ?_ ?_
      · intro x
        rw [List.mem_map]
        have hall : ∀ u, u ∈ vars ↔ u = vs[0] := by
          intro u
          rw [← hperm.mem_iff]
          obtain ⟨y, rfl⟩ := List.length_eq_one_iff.1 hlen'
          simp
        constructor
        · rintro ⟨l, hl, rfl⟩
          exact ⟨_, (hall _).2 rfl, l + 1, by omega, List.mem_range.1 hl, rfl⟩
        · rintro ⟨u, hu, k, h1, h2, rfl⟩
          exact ⟨k - 1, List.mem_range.2 (by omega), by rw [Nat.sub_add_cancel h1, (hall u).1 hu]⟩
      · rw [List.pairwise_map]
        refine List.Pairwise.imp_of_mem ?_ List.pairwise_lt_range
        intro a b ha hb hab
        rw [List.mem_range] at ha hb
        apply le_of_lt
        rw [lagName, lagName]
        apply List.append_left_lt
        rw [natStr, natStr, Nat.toDigits_of_lt_base (by omega), Nat.toDigits_of_lt_base (by omega),
          List.cons_lt_cons_iff]
        left
        have : ∀ b < 9, ∀ a < b, Nat.digitChar (a + 1) < Nat.digitChar (b + 1) := by decide
        exact this b (by omega) a hab
    rw [hinter, hlen'] at hpos
    have h1 : ((List.range p).map fun l => lagName vs[0] (l + 1)).getD ((k - 1) * 1 + 0) [] = lagName vs[0] k := by
      rw [List.getD_eq_getElem _ _ (by simp; omega)]
      simp [Nat.sub_add_cancel hk1]
    rw [h1] at hpos
    exact hpos (by simp; omega)

/-- **C59 is false in general**: with the variables `0` and `1` and two lags, as `generate_structure_dynamic` names
them, in every data frame the column `0_lag2` holds the value of variable `1` of one row before. -/
theorem generateDataframe_mislabelled {g : Graph Str K} (hg : Lagged [['0'], ['1']] 2 g) {n burnIn : ℕ} {semType : String}
    {drift : Option (ℕ → K)} {noise : ℕ → ℕ → K} {order : List ℕ} {F : DataFrame K}
    (h : generateDataframe g n burnIn semType drift noise order = .ok F) {t : ℕ} (ht : t + 1 < F.rows) :
    F.get (lagName ['0'] 2) (t + 1) = F.get (lagName ['1'] 0) t := by
  have hv : ∀ u ∈ ([['0'], ['1']] : List Str), '_' ∉ u := by decide
  have hinter : interNodes g = [lagName ['0'] 1, lagName ['0'] 2, lagName ['1'] 1, lagName ['1'] 2] := by
    refine interNodes_lagged hg hv ?_ ?_ ?_
    · simp only [lagName_eq]
      decide
    · intro x
      constructor
      · intro hx
        simp only [List.mem_cons, List.not_mem_nil, or_false] at hx
        rcases hx with rfl | rfl | rfl | rfl
        · exact ⟨['0'], by simp, 1, by omega, by omega, rfl⟩
        · exact ⟨['0'], by simp, 2, by omega, by omega, rfl⟩
        · exact ⟨['1'], by simp, 1, by omega, by omega, rfl⟩
        · exact ⟨['1'], by simp, 2, by omega, by omega, rfl⟩
      · rintro ⟨u, hu, k, h1, h2, rfl⟩
        have hk : k = 1 ∨ k = 2 := by omega
        simp only [List.mem_cons, List.not_mem_nil, or_false] at hu
        rcases hu with rfl | rfl <;> rcases hk with rfl | rfl <;> simp
    · simp only [lagName_eq]
      decide
  have hintra : intraNodes g = [lagName ['0'] 0, lagName ['1'] 0] := by
    obtain ⟨vs, hperm, hs, hi⟩ := intraNodes_lagged hg hv
    rw [hi]
    refine List.Perm.eq_of_pairwise (le := (· ≤ ·)) (fun a b _ _ => le_antisymm) (hs 0) ?_ (hperm.map _)
    simp only [lagName_eq]
    decide
  have := generateDataframe_positions (k := 0) (j := 1) (t := t) hg.nodup h (by rw [hintra]; decide)
    (by rw [hinter, hintra]; decide) ht
  rw [hinter, hintra] at this
  exact this

end

end Verif.Generators
