import Verif.Dynotears.Spec
import Verif.Notears.PropsPandas

/-!
# Properties of learning of dynamic structures from arrays: C45, C46, C47, C49
-/

namespace Verif.Dynotears

open Verif.Notears Verif.Str

/-! ### Names (C48) -/

/-- **C48**: distinct pairs of a variable and a lag have distinct names, whatever the names of the
variables are. -/
theorem lagName_inj {u v : Str} {k l : ℕ} (h : lagName u k = lagName v l) : u = v ∧ k = l := by
  have e : ∀ (u : Str) (k : ℕ), lagName u k = (u ++ "_la".toList) ++ 'g' :: natStr k := by
    intro u k
    unfold lagName
    rw [List.append_assoc, List.append_assoc]
    rfl
  rw [e, e] at h
  obtain ⟨h1, -, h3⟩ := append_natStr_inj (by decide) (by decide) h
  exact ⟨List.append_cancel_right h1, h3⟩

theorem underscore_not_mem (n : ℕ) : '_' ∉ natStr n := by
  intro h
  exact absurd (natStr_digit h) (by decide)

theorem split_lagName (i k : ℕ) : split "_lag".toList (lagName (natStr i) k) = [natStr i, natStr k] := by
  have : lagName (natStr i) k = natStr i ++ ('_' :: "lag".toList) ++ natStr k := rfl
  rw [this]
  change split ('_' :: "lag".toList) _ = _
  rw [split_append (underscore_not_mem i), split_none (underscore_not_mem k)]

/-- **C48**: the name of a node of the graph of positions is mapped to the name of the column at this
position, with the same lag. -/
theorem formatName_lagName (cols : List Str) (i k : ℕ) :
    formatName cols (lagName (natStr i) k) = match idxCol cols i with
      | none => .error .keyError
      | some v => .ok (lagName v k) := by
  unfold formatName
  rw [split_lagName]
  simp only [pyInt_natStr]
  rfl

/-! ### Layout -/

section
variable {K : Type} [Field K] [LinearOrder K]

theorem cell_lt' {d i j : ℕ} (hi : i < d) (hj : j < d) : i * d + j < d ^ 2 := by
  have h2 := Nat.mul_le_mul_right d (Nat.succ_le_of_lt hi)
  rw [Nat.succ_mul] at h2
  rw [sq]
  omega

omit [LinearOrder K] in
theorem wMat_eq (d : ℕ) (vec : List K) (i j : ℕ) : wMat d vec i j = weightOf d vec 0 i j := by
  unfold wMat weightOf
  congr 2 <;> ring_nf

omit [LinearOrder K] in
theorem aPart_eq {d : ℕ} (vec : List K) (s k : ℕ) {i j : ℕ} (hi : i < d) (hj : j < d) :
    aPart d vec s (k * d + i) j = vec.getD ((2 * (k + 1) + s) * d ^ 2 + i * d + j) 0 := by
  have hc := cell_lt' hi hj
  have hm : (k * d + i) * d + j = d ^ 2 * k + (i * d + j) := by ring
  unfold aPart
  simp only
  rw [hm, Nat.mul_add_div (by omega), Nat.div_eq_of_lt hc, Nat.mul_add_mod, Nat.mod_eq_of_lt hc,
    List.getD_eq_getElem?_getD, List.getElem?_drop, List.getD_eq_getElem?_getD]
  congr 2
  ring

omit [LinearOrder K] in
theorem aMat_eq {d : ℕ} (vec : List K) (k : ℕ) {i j : ℕ} (hi : i < d) (hj : j < d) :
    aMat d vec (k * d + i) j = weightOf d vec (k + 1) i j := by
  unfold aMat weightOf
  rw [aPart_eq vec 0 k hi hj, aPart_eq vec 1 k hi hj]
  rfl

/-! ### The graph -/

/-- The cells of an array with `r` rows. -/
def rect (r d : ℕ) : List (ℕ × ℕ) := (List.range r).flatMap fun i => (List.range d).map fun j => (i, j)

theorem mem_rect {r d i j : ℕ} : (i, j) ∈ rect r d ↔ i < r ∧ j < d := by simp [rect]

theorem rect_nodup (r d : ℕ) : (rect r d).Nodup := by
  rw [rect, List.nodup_flatMap]
  constructor
  · intro i _
    exact List.nodup_range.map fun a b h => (Prod.mk.inj h).2
  · refine List.nodup_range.imp ?_
    intro a b hab
    simp only [Function.onFun, List.disjoint_left, List.mem_map]
    rintro _ ⟨x, -, rfl⟩ ⟨y, -, h⟩
    exact hab (Prod.mk.inj h).1.symm

/-- The edges for the nonzero entries of an array. -/
def entries (M : ℕ → ℕ → K) (f g : ℕ → Str) (l : List (ℕ × ℕ)) : List (Str × Str × K) :=
  l.filterMap fun c => if M c.1 c.2 ≠ 0 then some (f c.1, g c.2, M c.1 c.2) else none

theorem mem_entries {M : ℕ → ℕ → K} {f g : ℕ → Str} {l : List (ℕ × ℕ)} {x : Str × Str × K} :
    x ∈ entries M f g l ↔ ∃ i j, (i, j) ∈ l ∧ M i j ≠ 0 ∧ x = (f i, g j, M i j) := by
  rw [entries, List.mem_filterMap]
  constructor
  · rintro ⟨⟨i, j⟩, hc, h⟩
    split at h
    · rename_i hne
      cases h
      exact ⟨i, j, hc, hne, rfl⟩
    · cases h
  · rintro ⟨i, j, hc, hne, rfl⟩
    exact ⟨(i, j), hc, by rw [if_pos hne]⟩

theorem entries_nodup {M : ℕ → ℕ → K} {f g : ℕ → Str} {l : List (ℕ × ℕ)} (hl : l.Nodup)
    (hf : ∀ c ∈ l, ∀ c' ∈ l, f c.1 = f c'.1 → g c.2 = g c'.2 → c = c') :
    ((entries M f g l).map fun x => (x.1, x.2.1)).Nodup := by
  induction l with
  | nil => simp [entries]
  | cons c l ih =>
    have ih := ih hl.of_cons fun c hc c' hc' => hf c (by simp [hc]) c' (by simp [hc'])
    rw [entries, List.filterMap_cons]
    split
    · exact ih
    · rename_i b h
      change ((b :: entries M f g l).map _).Nodup
      rw [List.map_cons, List.nodup_cons]
      refine ⟨?_, ih⟩
      intro hm
      obtain ⟨x, hx, he⟩ := List.mem_map.1 hm
      obtain ⟨i, j, hij, -, rfl⟩ := mem_entries.1 hx
      split at h
      · cases h
        have := hf (i, j) (by simp [hij]) c (by simp) (Prod.mk.inj he).1 (Prod.mk.inj he).2
        rw [← this] at hl
        exact (List.nodup_cons.1 hl).1 hij
      · cases h

/-- The names of the nodes, lag by lag. -/
def lagCols (d p : ℕ) : List Str :=
  (List.range (p + 1)).flatMap fun l => (List.range d).map fun var => lagName (natStr var) l

theorem lagCols_getD {d p i k : ℕ} (hi : i < d) (hk : k ≤ p) :
    (lagCols d p).getD (k * d + i) [] = lagName (natStr i) k := by
  rw [lagCols, List.getD_eq_getElem?_getD, flatMap_range_get _ d (p + 1) (by simp) k i (by omega) hi]
  simp [hi]

theorem mem_lagCols {d p : ℕ} {n : Str} :
    n ∈ lagCols d p ↔ ∃ i < d, ∃ k ≤ p, n = lagName (natStr i) k := by
  simp only [lagCols, List.mem_flatMap, List.mem_map, List.mem_range]
  constructor
  · rintro ⟨k, hk, i, hi, rfl⟩
    exact ⟨i, hi, k, by omega, rfl⟩
  · rintro ⟨i, hi, k, hk, rfl⟩
    exact ⟨k, by omega, i, hi, rfl⟩

theorem lagCols_nodup (d p : ℕ) : (lagCols d p).Nodup := by
  rw [lagCols, List.nodup_flatMap]
  constructor
  · intro l _
    exact List.nodup_range.map fun a b h => natStr_inj (lagName_inj h).1
  · refine List.nodup_range.imp ?_
    intro a b hab
    simp only [Function.onFun, List.disjoint_left, List.mem_map]
    rintro _ ⟨x, -, rfl⟩ ⟨y, -, h⟩
    exact hab (lagName_inj h).2.symm

omit [Field K] [LinearOrder K] in
/-- Adding edges never makes two edges between the same nodes. -/
theorem addWeightedEdges_pairs {o : String} (g : Graph Str K) (es : List (Str × Str × K))
    (hg : (g.edges.map fun e => (e.src, e.dst)).Nodup) :
    ((addWeightedEdges o g es).edges.map fun e => (e.src, e.dst)).Nodup := by
  unfold addWeightedEdges
  induction es generalizing g with
  | nil => exact hg
  | cons x es ih =>
    rw [List.foldl_cons]
    apply ih
    unfold addEdge
    simp only [addNodes_edges]
    split
    · rw [List.map_map]
      convert hg using 2
      funext y
      simp only [Function.comp]
      split
      · rename_i h
        rw [h.1, h.2]
      · rfl
    · rename_i h
      rw [List.map_append, List.nodup_append]
      refine ⟨hg, by simp, ?_⟩
      intro a ha b hb hab
      simp only [List.map_cons, List.map_nil, List.mem_singleton] at hb
      subst hb hab
      apply h
      obtain ⟨y, hy, he⟩ := List.mem_map.1 ha
      rw [List.any_eq_true]
      exact ⟨y, hy, by simpa using he⟩

/-- The graph made from two arrays. -/
theorem toGraph_eq {d p : ℕ} (hd : d ≠ 0) (W A : ℕ → ℕ → K) : toGraph d p W A =
    ⟨lagCols d p,
      ((entries W (fun i => (lagCols d p).getD i []) (fun j => (lagCols d p).getD j []) (rect d d)).map
        fun e => ⟨e.1, e.2.1, e.2.2, "unknown"⟩) ++
      (entries A (fun i => (lagCols d p).getD (i + d) []) (fun j => (lagCols d p).getD j []) (rect (p * d) d)).map
        fun e => ⟨e.1, e.2.1, e.2.2, "unknown"⟩⟩ := by
  have hp : 1 + p * d / d = p + 1 := by rw [Nat.mul_div_cancel _ (by omega)]; omega
  have h0 : ∀ i < d, (lagCols d p).getD i [] = lagName (natStr i) 0 := by
    intro i hi
    have := lagCols_getD (p := p) hi (Nat.zero_le p)
    simpa using this
  have h1 : ∀ r < p * d, (lagCols d p).getD (r + d) [] = lagName (natStr (r % d)) (r / d + 1) := by
    intro r hr
    have hlt : r / d < p := Nat.div_lt_of_lt_mul (by rw [Nat.mul_comm]; exact hr)
    have := lagCols_getD (p := p) (Nat.mod_lt r (by omega : d > 0)) (by omega : r / d + 1 ≤ p)
    rw [Nat.succ_mul, show r / d * d + d + r % d = r + d by have := Nat.div_add_mod' r d; omega] at this
    exact this
  have hmem0 : ∀ i < d, lagName (natStr i) 0 ∈ lagCols d p := fun i hi => mem_lagCols.2 ⟨i, hi, 0, by omega, rfl⟩
  have hmem1 : ∀ r < p * d, lagName (natStr (r % d)) (r / d + 1) ∈ lagCols d p := fun r hr =>
    mem_lagCols.2 ⟨_, Nat.mod_lt _ (by omega), _, Nat.div_lt_of_lt_mul (by rw [Nat.mul_comm]; exact hr), rfl⟩
  have hnodes : (addNodes (⟨[], []⟩ : Graph Str K) (lagCols d p)) = ⟨lagCols d p, []⟩ := by
    have h1 := addNodes_nodup (K := K) ⟨[], []⟩ (lagCols_nodup d p) (by simp)
    have h2 := addNodes_edges (K := K) ⟨[], []⟩ (lagCols d p)
    cases h : addNodes (⟨[], []⟩ : Graph Str K) (lagCols d p)
    rw [h] at h1 h2
    simp only [List.nil_append] at h1 h2
    rw [h1, h2]
  unfold toGraph
  simp only [hp]
  change addWeightedEdges "unknown" (addWeightedEdges "unknown" (addNodes ⟨[], []⟩ (lagCols d p))
    (entries W (fun i => (lagCols d p).getD i []) (fun j => (lagCols d p).getD j []) (rect d d)))
    (entries A (fun i => (lagCols d p).getD (i + d) []) (fun j => (lagCols d p).getD j []) (rect (p * d) d)) = _
  have hW := addWeightedEdges_nodup (K := K) (o := "unknown") ⟨lagCols d p, []⟩
    (es := entries W (fun i => (lagCols d p).getD i []) (fun j => (lagCols d p).getD j []) (rect d d)) (by
      intro e he
      obtain ⟨i, j, hij, -, rfl⟩ := mem_entries.1 he
      obtain ⟨hi, hj⟩ := mem_rect.1 hij
      exact ⟨by simp only [h0 i hi]; exact hmem0 i hi, by simp only [h0 j hj]; exact hmem0 j hj⟩) (by
      refine entries_nodup (rect_nodup _ _) ?_
      rintro ⟨i, j⟩ hc ⟨i', j'⟩ hc' he1 he2
      obtain ⟨hi, hj⟩ := mem_rect.1 hc
      obtain ⟨hi', hj'⟩ := mem_rect.1 hc'
      simp only [h0 _ hj, h0 _ hj', h0 _ hi, h0 _ hi'] at he1 he2
      rw [natStr_inj (lagName_inj he1).1, natStr_inj (lagName_inj he2).1]) (by simp)
  rw [hnodes, hW, addWeightedEdges_nodup]
  · simp
  · intro e he
    obtain ⟨i, j, hij, -, rfl⟩ := mem_entries.1 he
    obtain ⟨hi, hj⟩ := mem_rect.1 hij
    exact ⟨by simp only [h1 i hi]; exact hmem1 i hi, by simp only [h0 j hj]; exact hmem0 j hj⟩
  · refine entries_nodup (rect_nodup _ _) ?_
    rintro ⟨i, j⟩ hc ⟨i', j'⟩ hc' he1 he2
    obtain ⟨hi, hj⟩ := mem_rect.1 hc
    obtain ⟨hi', hj'⟩ := mem_rect.1 hc'
    simp only [h0 _ hj, h0 _ hj', h1 _ hi, h1 _ hi'] at he1 he2
    obtain ⟨e1, e2⟩ := lagName_inj he1
    have e1 := natStr_inj e1
    have e3 := natStr_inj (lagName_inj he2).1
    have : i = i' := by rw [← Nat.div_add_mod i d, ← Nat.div_add_mod i' d, e1, Nat.succ_injective e2]
    rw [this, e3]
  · intro e he x hx
    simp only [List.nil_append, List.mem_map] at hx
    obtain ⟨y, hy, rfl⟩ := hx
    obtain ⟨i, j, hij, -, rfl⟩ := mem_entries.1 he
    obtain ⟨i', j', hij', -, rfl⟩ := mem_entries.1 hy
    rintro ⟨he1, -⟩
    simp only [h0 _ (mem_rect.1 hij').1, h1 _ (mem_rect.1 hij).1] at he1
    exact absurd (lagName_inj he1).2 (Nat.succ_ne_zero _).symm

theorem range_map_get {d i : ℕ} {u : Str} : ((List.range d).map natStr)[i]? = some u ↔ i < d ∧ u = natStr i := by
  by_cases h : i < d <;> simp [h, eq_comm]

/-- The graph made from the weights of a vector. -/
theorem toGraph_dyn {d p : ℕ} (hd : d ≠ 0) (thr : K) (vec : List K) :
    IsDynGraph ((List.range d).map natStr) p (weightOf d vec) thr "unknown"
      (toGraph d p (fun i j => cutStrict thr (wMat d vec i j)) (fun i j => cutStrict thr (aMat d vec i j))) := by
  have hedge : ∀ e : Edge Str K, e ∈ (toGraph d p (fun i j => cutStrict thr (wMat d vec i j))
      (fun i j => cutStrict thr (aMat d vec i j))).edges ↔ ∃ k i j, k ≤ p ∧ i < d ∧ j < d ∧
        weightOf d vec k i j ≠ 0 ∧ thr ≤ |weightOf d vec k i j| ∧
        e = ⟨lagName (natStr i) k, lagName (natStr j) 0, weightOf d vec k i j, "unknown"⟩ := by
    intro e
    rw [toGraph_eq hd]
    simp only [List.mem_append, List.mem_map]
    have h0 : ∀ i < d, (lagCols d p).getD i [] = lagName (natStr i) 0 := by
      intro i hi
      have := lagCols_getD (p := p) hi (Nat.zero_le p)
      simpa using this
    have h1 : ∀ k < p, ∀ i < d, (lagCols d p).getD (k * d + i + d) [] = lagName (natStr i) (k + 1) := by
      intro k hk i hi
      have := lagCols_getD (p := p) hi hk
      rwa [show (k + 1) * d + i = k * d + i + d by ring] at this
    constructor
    · rintro (⟨x, hx, rfl⟩ | ⟨x, hx, rfl⟩)
      · obtain ⟨i, j, hij, hne, rfl⟩ := mem_entries.1 hx
        obtain ⟨hi, hj⟩ := mem_rect.1 hij
        have h2 := cutStrict_ne_zero.1 hne
        simp only [h0 i hi, h0 j hj, cutStrict_eq hne]
        rw [wMat_eq] at h2 ⊢
        exact ⟨0, i, j, by omega, hi, hj, h2.1, h2.2, rfl⟩
      · obtain ⟨r, j, hij, hne, rfl⟩ := mem_entries.1 hx
        obtain ⟨hr, hj⟩ := mem_rect.1 hij
        have h2 := cutStrict_ne_zero.1 hne
        obtain ⟨k, i, hk, hi, rfl⟩ : ∃ k i, k < p ∧ i < d ∧ r = k * d + i :=
          ⟨r / d, r % d, Nat.div_lt_of_lt_mul (by rw [Nat.mul_comm]; exact hr), Nat.mod_lt _ (by omega),
            (Nat.div_add_mod' r d).symm⟩
        simp only [h1 k hk i hi, h0 j hj, cutStrict_eq hne]
        rw [aMat_eq vec k hi hj] at h2 ⊢
        exact ⟨k + 1, i, j, hk, hi, hj, h2.1, h2.2, rfl⟩
    · rintro ⟨k, i, j, hk, hi, hj, hne, hthr, rfl⟩
      cases k with
      | zero =>
        left
        rw [← wMat_eq] at hne hthr ⊢
        have h3 := cutStrict_ne_zero.2 ⟨hne, hthr⟩
        exact ⟨_, mem_entries.2 ⟨i, j, mem_rect.2 ⟨hi, hj⟩, h3, rfl⟩, by
          simp only [h0 i hi, h0 j hj, cutStrict_eq h3]⟩
      | succ k =>
        right
        rw [← aMat_eq vec k hi hj] at hne hthr ⊢
        have h3 := cutStrict_ne_zero.2 ⟨hne, hthr⟩
        have hr : k * d + i < p * d := by
          have := Nat.mul_le_mul_right d hk
          rw [Nat.succ_mul] at this
          omega
        exact ⟨_, mem_entries.2 ⟨k * d + i, j, mem_rect.2 ⟨hr, hj⟩, h3, rfl⟩, by
          simp only [h1 k hk i hi, h0 j hj, cutStrict_eq h3]⟩
  refine ⟨?_, ?_, ?_, ?_⟩
  · intro n
    rw [toGraph_eq hd]
    simp only [mem_lagCols, List.mem_map, List.mem_range]
    constructor
    · rintro ⟨i, hi, k, hk, rfl⟩
      exact ⟨_, ⟨i, hi, rfl⟩, k, hk, rfl⟩
    · rintro ⟨_, ⟨i, hi, rfl⟩, k, hk, rfl⟩
      exact ⟨i, hi, k, hk, rfl⟩
  · rw [toGraph_eq hd]
    exact lagCols_nodup d p
  · intro e
    rw [hedge]
    constructor
    · rintro ⟨k, i, j, hk, hi, hj, h1, h2, rfl⟩
      exact ⟨k, i, j, _, _, hk, range_map_get.2 ⟨hi, rfl⟩, range_map_get.2 ⟨hj, rfl⟩, h1, h2, rfl⟩
    · rintro ⟨k, i, j, u, v, hk, hu, hv, h1, h2, rfl⟩
      obtain ⟨hi, rfl⟩ := range_map_get.1 hu
      obtain ⟨hj, rfl⟩ := range_map_get.1 hv
      exact ⟨k, i, j, hk, hi, hj, h1, h2, rfl⟩
  · unfold toGraph
    refine addWeightedEdges_pairs _ _ (addWeightedEdges_pairs _ _ ?_)
    rw [addNodes_edges]
    simp

/-! ### Bounds (C45) -/

theorem boundW_zero {t : Tabu ℕ} {i j : ℕ} (h : ¬ Permitted t 0 i j) :
    (boundW t (i, j) : Bound K) = (some 0, some 0) := by
  unfold boundW
  split_ifs with h1 h2 h3 h4
  · rfl
  · rfl
  · rfl
  · rfl
  · exfalso
    apply h
    refine ⟨fun _ => h1, ?_, ?_, ?_⟩
    · rintro te hte hm
      exact h2 (by rw [hte]; simpa using hm)
    · rintro te hte hm
      exact h3 (by rw [hte]; simpa using hm)
    · rintro te hte hm
      exact h4 (by rw [hte]; simpa using hm)

theorem boundA_zero {t : Tabu ℕ} {k i j : ℕ} (hk : k ≠ 0) (h : ¬ Permitted t k i j) :
    (boundA t k (i, j) : Bound K) = (some 0, some 0) := by
  unfold boundA
  split_ifs with h2 h3 h4
  · rfl
  · rfl
  · rfl
  · exfalso
    apply h
    refine ⟨fun h => absurd h hk, ?_, ?_, ?_⟩
    · rintro te hte hm
      exact h2 (by rw [hte]; simpa using hm)
    · rintro te hte hm
      exact h3 (by rw [hte]; simpa using hm)
    · rintro te hte hm
      exact h4 (by rw [hte]; simpa using hm)

/-- The bounds of one block. -/
def block (t : Tabu ℕ) (d k : ℕ) : List (Bound K) :=
  (cells d).map fun c => if k = 0 then boundW t c else boundA t k c

theorem bounds_eq (t : Tabu ℕ) (d p : ℕ) : (bounds t d p : List (Bound K)) =
    (List.range (p + 1)).flatMap fun k => block t d k ++ block t d k := by
  rw [List.range_succ_eq_map, List.flatMap_cons, List.flatMap_map]
  rfl

theorem block_length (t : Tabu ℕ) (d k : ℕ) : (block t d k : List (Bound K)).length = d ^ 2 := by
  rw [block, List.length_map, cells_length, sq]

theorem bounds_get {t : Tabu ℕ} {d p k i j : ℕ} (s : ℕ) (hs : s < 2) (hk : k ≤ p) (hi : i < d) (hj : j < d) :
    (bounds t d p : List (Bound K))[(2 * k + s) * d ^ 2 + i * d + j]? =
      some (if k = 0 then boundW t (i, j) else boundA t k (i, j)) := by
  have hc := cell_lt' hi hj
  have hb : (block t d k : List (Bound K))[i * d + j]? =
      some (if k = 0 then boundW t (i, j) else boundA t k (i, j)) := by
    rw [block, List.getElem?_map, cells_get hi hj]
    rfl
  rw [bounds_eq, show (2 * k + s) * d ^ 2 + i * d + j = k * (2 * d ^ 2) + (s * d ^ 2 + (i * d + j)) by ring,
    flatMap_range_get _ (2 * d ^ 2) (p + 1) _ k _ (by omega)]
  · obtain rfl | rfl : s = 0 ∨ s = 1 := by omega
    · rw [Nat.zero_mul, Nat.zero_add, List.getElem?_append_left (by rw [block_length]; exact hc), hb]
    · rw [List.getElem?_append_right (by rw [block_length]; omega), block_length, Nat.one_mul,
        Nat.add_sub_cancel_left, hb]
  · obtain rfl | rfl : s = 0 ∨ s = 1 := by omega
    · omega
    · omega
  · intro k
    rw [List.length_append, block_length]
    omega

theorem bounds_length (t : Tabu ℕ) (d p : ℕ) :
    (bounds t d p : List (Bound K)).length = 2 * (p + 1) * d ^ 2 := by
  rw [bounds_eq, List.length_flatMap]
  simp only [List.length_append, block_length]
  rw [List.map_const', List.sum_replicate, List.length_range]
  change (p + 1) * (d ^ 2 + d ^ 2) = _
  ring

theorem mem_bounds {t : Tabu ℕ} {d p : ℕ} {b : Bound K} (h : b ∈ bounds t d p) :
    b = (some 0, some 0) ∨ b = (some 0, none) := by
  rw [bounds_eq, List.mem_flatMap] at h
  obtain ⟨k, -, h⟩ := h
  have : b ∈ block t d k := by simpa using h
  obtain ⟨c, -, rfl⟩ := List.mem_map.1 this
  unfold boundW boundA
  split_ifs <;> simp

theorem bounds_zero (t : Tabu ℕ) (d p : ℕ) :
    InBox (bounds t d p : List (Bound K)) (List.replicate (2 * (p + 1) * d ^ 2) 0) := by
  rw [← bounds_length t d p (K := K)]
  have : ∀ l : List (Bound K), (∀ b ∈ l, b = (some 0, some 0) ∨ b = (some 0, none)) →
      InBox l (List.replicate l.length 0) := by
    intro l
    induction l with
    | nil => intro _; exact .nil
    | cons b l ih =>
      intro h
      refine .cons ?_ (ih fun b hb => h b (by simp [hb]))
      rcases h b (by simp) with rfl | rfl <;> simp
  exact this _ fun b hb => mem_bounds hb

/-- A vector within the bounds has weight zero wherever an edge is excluded. -/
theorem weightOf_forbidden {t : Tabu ℕ} {d p : ℕ} {vec : List K} (h : InBox (bounds t d p) vec)
    {k i j : ℕ} (hk : k ≤ p) (hi : i < d) (hj : j < d) (hp : ¬ Permitted t k i j) :
    weightOf d vec k i j = 0 := by
  have hz : (if k = 0 then boundW t (i, j) else boundA t k (i, j) : Bound K) = (some 0, some 0) := by
    split
    · rename_i h0
      subst h0
      exact boundW_zero hp
    · rename_i h0
      exact boundA_zero h0 hp
  have key : ∀ s < 2, vec.getD ((2 * k + s) * d ^ 2 + i * d + j) 0 = 0 := by
    intro s hs
    have := inBox_getD h (k := (2 * k + s) * d ^ 2 + i * d + j) (b := (some 0, some 0)) (by
      rw [bounds_get s hs hk hi hj, hz])
    exact le_antisymm (this.2 0 rfl) (this.1 0 rfl)
  have h0 := key 0 (by omega)
  rw [Nat.add_zero] at h0
  unfold weightOf
  rw [h0, key 1 (by omega), sub_zero]

/-! ### The theorems -/

variable {P : Problem K} {minimize : Minimizer K}

theorem shapes_iff {X Xlags : Data K} : Shapes X Xlags ↔ X.cols ≠ 0 ∧ ¬ X.rows * X.cols = 0 ∧
    ¬ Xlags.rows * Xlags.cols = 0 ∧ ¬ X.rows ≠ Xlags.rows ∧ ¬ Xlags.cols % X.cols ≠ 0 := by
  unfold Shapes
  rw [Nat.mul_eq_zero, Nat.mul_eq_zero, Nat.dvd_iff_mod_eq_zero]
  constructor
  · rintro ⟨h1, h2, h3, h4, h5⟩
    omega
  · rintro ⟨h1, h2, h3, h4, h5⟩
    omega

theorem fromNumpyDynamicW_ok {fuel : ℕ} {X Xlags : Data K} {a : Params K ℕ} {r : Graph Str K × Bool} :
    fromNumpyDynamicW P minimize fuel X Xlags a = .ok r ↔ Shapes X Xlags ∧
      ∃ s, learnLoop P minimize (bounds a.tabu X.cols (Xlags.cols / X.cols))
        (2 * (Xlags.cols / X.cols + 1) * X.cols ^ 2) a.maxIter a.hTol fuel = some s ∧
        r = (toGraph X.cols (Xlags.cols / X.cols) (fun i j => cutStrict a.wThreshold (wMat X.cols s.wEst i j))
          (fun i j => cutStrict a.wThreshold (aMat X.cols s.wEst i j)), s.warned) := by
  rw [shapes_iff]
  unfold fromNumpyDynamicW learnDynamic
  by_cases h1 : X.cols = 0
  · simp [h1]
  by_cases h2 : X.rows * X.cols = 0
  · simp [h1, h2]
  by_cases h3 : Xlags.rows * Xlags.cols = 0
  · simp [h1, h2, h3]
  by_cases h4 : X.rows ≠ Xlags.rows
  · simp [h1, h2, h3, h4]
  by_cases h5 : Xlags.cols % X.cols ≠ 0
  · simp [h1, h2, h3, h4, h5]
  simp only [if_neg h1, if_neg h2, if_neg h3, if_neg h4, if_neg h5]
  cases hl : learnLoop P minimize (bounds a.tabu X.cols (Xlags.cols / X.cols))
      (2 * (Xlags.cols / X.cols + 1) * X.cols ^ 2) a.maxIter a.hTol fuel with
  | none => simp
  | some s =>
    simp only [Except.ok.injEq, Option.some.injEq, exists_eq_left', eq_comm (b := r)]
    exact ⟨fun h => ⟨⟨h1, h2, h3, h4, h5⟩, h⟩, fun h => h.2⟩

theorem fromNumpyDynamic_ok {fuel : ℕ} {X Xlags : Data K} {a : Params K ℕ} {g : Graph Str K} :
    fromNumpyDynamic P minimize fuel X Xlags a = .ok g ↔ Shapes X Xlags ∧
      ∃ s, learnLoop P minimize (bounds a.tabu X.cols (Xlags.cols / X.cols))
        (2 * (Xlags.cols / X.cols + 1) * X.cols ^ 2) a.maxIter a.hTol fuel = some s ∧
        g = toGraph X.cols (Xlags.cols / X.cols) (fun i j => cutStrict a.wThreshold (wMat X.cols s.wEst i j))
          (fun i j => cutStrict a.wThreshold (aMat X.cols s.wEst i j)) := by
  unfold fromNumpyDynamic
  cases h : fromNumpyDynamicW P minimize fuel X Xlags a with
  | error e =>
    simp only [reduceCtorEq, false_iff]
    rintro ⟨hs, s, hl, -⟩
    rw [fromNumpyDynamicW_ok.2 ⟨hs, s, hl, rfl⟩] at h
    cases h
  | ok r =>
    obtain ⟨hs, s, hl, rfl⟩ := fromNumpyDynamicW_ok.1 h
    simp [hs, hl, eq_comm]

/-- **C46** for `from_numpy_dynamic`: there is a vector of weights, all zero or returned by the optimiser,
such that the graph is the dynamic graph of its weights. -/
theorem fromNumpyDynamic_graph {fuel : ℕ} {X Xlags : Data K} {a : Params K ℕ} {g : Graph Str K}
    (h : fromNumpyDynamic P minimize fuel X Xlags a = .ok g) :
    ∃ vec, (vec = List.replicate (2 * (Xlags.cols / X.cols + 1) * X.cols ^ 2) 0 ∨
        Returned P minimize (bounds a.tabu X.cols (Xlags.cols / X.cols)) vec) ∧
      IsDynGraph ((List.range X.cols).map natStr) (Xlags.cols / X.cols) (weightOf X.cols vec) a.wThreshold
        "unknown" g := by
  obtain ⟨hs, s, hl, rfl⟩ := fromNumpyDynamic_ok.1 h
  exact ⟨s.wEst, learnLoop_returned hl, toGraph_dyn hs.2.1 _ _⟩

/-- **C45** for `from_numpy_dynamic`: whatever the optimiser does within its bounds, no excluded edge is
learned. -/
theorem fromNumpyDynamic_permitted (hm : RespectsBounds minimize) {fuel : ℕ} {X Xlags : Data K}
    {a : Params K ℕ} {g : Graph Str K} (h : fromNumpyDynamic P minimize fuel X Xlags a = .ok g) :
    ∀ e ∈ g.edges, ∃ k i j, k ≤ Xlags.cols / X.cols ∧ i < X.cols ∧ j < X.cols ∧
      e.src = lagName (natStr i) k ∧ e.dst = lagName (natStr j) 0 ∧ Permitted a.tabu k i j := by
  obtain ⟨hs, s, hl, rfl⟩ := fromNumpyDynamic_ok.1 h
  have hbox := learnLoop_inBox hm hl (bounds_zero _ _ _)
  intro e he
  obtain ⟨k, i, j, u, v, hk, hu, hv, hne, -, rfl⟩ := ((toGraph_dyn hs.2.1 _ _).edges e).1 he
  obtain ⟨hi, rfl⟩ := range_map_get.1 hu
  obtain ⟨hj, rfl⟩ := range_map_get.1 hv
  refine ⟨k, i, j, hk, hi, hj, rfl, rfl, ?_⟩
  by_contra hp
  exact hne (weightOf_forbidden hbox hk hi hj hp)

/-- **C49**: with finite scores `from_numpy_dynamic` ends, and raises exactly if the shapes do not fit;
without any column it is `ZeroDivisionError`. -/
theorem fromNumpyDynamic_total [IsStrictOrderedRing K] (hP : FiniteScores P) {fuel : ℕ} (hf : 21 ≤ fuel)
    (X Xlags : Data K) (a : Params K ℕ) :
    (Shapes X Xlags → ∃ g, fromNumpyDynamic P minimize fuel X Xlags a = .ok g) ∧
    (X.cols = 0 → fromNumpyDynamic P minimize fuel X Xlags a = .error .zeroDivision) ∧
    (X.cols ≠ 0 → ¬ Shapes X Xlags → fromNumpyDynamic P minimize fuel X Xlags a = .error .valueError) := by
  refine ⟨?_, ?_, ?_⟩
  · intro hs
    obtain ⟨s, hl, -⟩ := learnLoop_terminates (minimize := minimize)
      (bnds := bounds a.tabu X.cols (Xlags.cols / X.cols)) hP (2 * (Xlags.cols / X.cols + 1) * X.cols ^ 2)
      a.maxIter a.hTol hf
    exact ⟨_, fromNumpyDynamic_ok.2 ⟨hs, s, hl, rfl⟩⟩
  · intro h
    simp [fromNumpyDynamic, fromNumpyDynamicW, h]
  · intro h1 hs
    rw [shapes_iff] at hs
    unfold fromNumpyDynamic fromNumpyDynamicW learnDynamic
    by_cases h2 : X.rows * X.cols = 0
    · simp [h1, h2]
    by_cases h3 : Xlags.rows * Xlags.cols = 0
    · simp [h1, h2, h3]
    by_cases h4 : X.rows ≠ Xlags.rows
    · simp [h1, h2, h3, h4]
    by_cases h5 : Xlags.cols % X.cols ≠ 0
    · simp [h1, h2, h3, h4, h5]
    exact absurd ⟨h1, h2, h3, h4, h5⟩ hs

end

end Verif.Dynotears
