import Verif.Generators.Spec
import Verif.Notears.Props

/-!
# Properties of random structures
-/

namespace Verif.Generators

open Verif.Notears (Graph ofMatrix mem_ofMatrix ofMatrix_pairs_nodup)

section
variable {K : Type} [Field K] [LinearOrder K]

theorem permuted_apply {n : ℕ} (σ : Equiv.Perm (Fin n)) (flags : Matrix (Fin n) (Fin n) K) (i j : Fin n) :
    permuted σ flags i j = flags (σ.symm i) (σ.symm j) := by
  simp only [permuted, Matrix.mul_apply, Matrix.transpose_apply, Matrix.submatrix_apply,
    Matrix.one_apply, id]
  rw [Finset.sum_eq_single (σ.symm j)]
  · rw [if_pos (σ.apply_symm_apply j), mul_one, Finset.sum_eq_single (σ.symm i)]
    · rw [if_pos (σ.apply_symm_apply i), one_mul]
    · intro b _ hb
      rw [if_neg, zero_mul]
      rintro rfl
      exact hb (σ.symm_apply_apply b).symm
    · simp
  · intro b _ hb
    rw [if_neg, mul_zero]
    rintro rfl
    exact hb (σ.symm_apply_apply b).symm
  · simp

theorem mark_apply (flags : ℕ → ℕ → K) (i : ℕ) (dest : List ℕ) (a b : ℕ) :
    mark flags i dest a b = if a = i ∧ b ∈ dest then 1 else flags a b := by
  unfold mark
  induction dest generalizing flags with
  | nil => simp
  | cons j dest ih =>
    rw [List.foldl_cons, ih]
    by_cases ha : a = i
    · subst ha
      by_cases hb : b = j
      · subst hb
        simp
      · simp [hb]
    · simp [ha]

theorem mem_choice {bag : List ℕ} {m : ℕ} {pick : ℕ → ℕ} {x : ℕ} (hb : bag ≠ []) (h : x ∈ choice bag m pick) :
    x ∈ bag := by
  obtain ⟨k, _, rfl⟩ := List.mem_map.1 h
  have : pick k % bag.length < bag.length := Nat.mod_lt _ (List.length_pos_of_ne_nil hb)
  rw [List.getD_eq_getElem _ _ this]
  exact List.getElem_mem _

/-- What the loop of the Barabási-Albert graphs leaves behind: rows before the current one are kept, and the row
of a later turn holds the nodes chosen in that turn, between one and `m` of them (if `m ≠ 0`), all earlier. -/
theorem barabasi_rows (m : ℕ) (pick : ℕ → ℕ → ℕ) (k i : ℕ) (flags : ℕ → ℕ → K) (bag : List ℕ) (hb : bag ≠ [])
    (hlt : ∀ x ∈ bag, x < i) (hz : ∀ a b, i ≤ a → flags a b = 0) (a : ℕ) :
    (a < i ∨ i + k ≤ a → ∀ b, barabasi m pick k i flags bag a b = flags a b) ∧
    (i ≤ a → a < i + k → ∃ dest : List ℕ, dest.length = m ∧ (∀ x ∈ dest, x < a) ∧
      ∀ b, barabasi m pick k i flags bag a b = if b ∈ dest then 1 else 0) := by
  induction k generalizing i flags bag with
  | zero =>
    refine ⟨fun _ _ => rfl, fun h1 h2 => absurd h2 (by omega)⟩
  | succ k ih =>
    have hd : ∀ x ∈ choice bag m (pick i), x < i := fun x hx => hlt x (mem_choice hb hx)
    have hmark : ∀ a b, a ≠ i → mark flags i (choice bag m (pick i)) a b = flags a b := by
      intro a b hab
      rw [mark_apply, if_neg fun h => hab h.1]
    have := ih (i + 1) (mark flags i (choice bag m (pick i))) (bag ++ [i] ++ choice bag m (pick i))
      (by simp) (by
        intro x hx
        rw [List.mem_append, List.mem_append, List.mem_singleton] at hx
        rcases hx with (hx | hx) | hx
        · have := hlt x hx; omega
        · omega
        · have := hd x hx; omega)
      (by
        intro a b ha
        rw [hmark a b (by omega), hz a b (by omega)])
    rw [barabasi]
    constructor
    · intro h b
      rw [this.1 (by omega), hmark a b (by omega)]
    · intro h1 h2
      rcases Nat.eq_or_lt_of_le h1 with rfl | h1
      · refine ⟨choice bag m (pick i), by simp [choice], hd, fun b => ?_⟩
        rw [this.1 (Or.inl (Nat.lt_succ_self _)), mark_apply, hz _ _ le_rfl]
        simp
      · exact this.2 h1 (by omega)

variable [IsStrictOrderedRing K]

/-- All edges point from a later to an earlier node, before the nodes are permuted. -/
theorem edgeFlags_lower [FloorRing K] {n : ℕ} {degree : K} {graphType : String} {r : Draws K n}
    {flags : Matrix (Fin n) (Fin n) K} (h : edgeFlags degree graphType r = .ok flags) {i j : Fin n}
    (hij : flags i j ≠ 0) : j < i := by
  unfold edgeFlags at h
  split at h
  · injection h with h
    subst h
    by_contra hc
    exact hij (if_neg hc)
  · split at h
    · dsimp only at h
      split at h
      · exact absurd h (by simp)
      · injection h with h
        subst h
        have := barabasi_rows (K := K) (pyRound (degree / 2)).toNat r.pick (n - 1) 1 (fun _ _ => 0) [0] (by simp)
          (by simp) (by simp) i
        by_cases h0 : 1 ≤ (i : ℕ)
        · obtain ⟨dest, _, hd, hb⟩ := this.2 h0 (by omega)
          by_contra hc
          refine hij ?_
          dsimp only
          rw [hb, if_neg]
          intro hj
          exact hc (Fin.lt_def.2 (hd _ hj))
        · exact absurd (this.1 (Or.inl (by omega)) j) hij
    · split at h
      · injection h with h
        subst h
        by_contra hc
        exact hij (if_neg hc)
      · exact absurd h (by simp)

omit [IsStrictOrderedRing K] in
theorem ofFin_apply {n : ℕ} (M : Fin n → Fin n → K) (i j : Fin n) : ofFin M i j = M i j := by
  unfold ofFin
  rw [dif_pos ⟨i.2, j.2⟩]

theorem abs_edgeWeights {n : ℕ} {wMin wMax : K} (h0 : 0 ≤ wMin) (h : wMin ≤ wMax) {r : Draws K n} (hr : r.Uniform)
    (i j : Fin n) : wMin ≤ |edgeWeights wMin wMax r i j| ∧ |edgeWeights wMin wMax r i j| ≤ wMax := by
  have h1 := hr.unif i j
  have h2 : wMin ≤ wMin + (wMax - wMin) * r.unif i j := by
    have := mul_nonneg (sub_nonneg.2 h) h1.1
    linarith
  have h3 : wMin + (wMax - wMin) * r.unif i j ≤ wMax := by
    have := mul_le_mul_of_nonneg_left h1.2.le (sub_nonneg.2 h)
    linarith
  have h4 : |edgeWeights wMin wMax r i j| = wMin + (wMax - wMin) * r.unif i j := by
    unfold edgeWeights
    dsimp only
    split
    · rw [mul_neg_one, abs_neg, abs_of_nonneg (h0.trans h2)]
    · rw [abs_of_nonneg (h0.trans h2)]
  rw [h4]
  exact ⟨h2, h3⟩

/-- The edges of a generated structure. -/
theorem generateStructure_edges [FloorRing K] {n : ℕ} {degree wMin wMax : K} {graphType : String} {r : Draws K n}
    {g : Graph ℕ K} (h : generateStructure n degree graphType wMin wMax r = .ok g) :
    2 ≤ n ∧ |wMin| ≤ |wMax| ∧ ∃ flags, edgeFlags degree graphType r = .ok flags ∧
      g = ofMatrix n (ofFin fun i j => (if flags (r.perm.symm i) (r.perm.symm j) ≠ 0 then 1 else 0) *
        edgeWeights |wMin| |wMax| r i j) := by
  unfold generateStructure at h
  split at h
  · exact absurd h (by simp)
  · dsimp only at h
    split at h
    · exact absurd h (by simp)
    · rename_i h1 h2
      split at h
      · exact absurd h (by simp)
      · rename_i flags hf
        injection h with h
        refine ⟨by omega, not_lt.1 h2, flags, hf, ?_⟩
        rw [← h]
        simp only [permuted_apply]

theorem mem_generated {n : ℕ} {F : Fin n → Fin n → Prop} [∀ i j, Decidable (F i j)] {w : Fin n → Fin n → K}
    {e : Verif.Notears.Edge ℕ K} :
    e ∈ (ofMatrix n (ofFin fun i j => (if F i j then 1 else 0) * w i j)).edges ↔
      ∃ i j : Fin n, F i j ∧ w i j ≠ 0 ∧ e = ⟨i, j, w i j, "unknown"⟩ := by
  rw [mem_ofMatrix]
  constructor
  · rintro ⟨h1, h2, h3, h4, h5⟩
    have h6 := ofFin_apply (fun i j => (if F i j then 1 else 0) * w i j) ⟨e.src, h1⟩ ⟨e.dst, h2⟩
    have hF : F ⟨e.src, h1⟩ ⟨e.dst, h2⟩ := by
      by_contra hc
      rw [h6, if_neg hc, zero_mul] at h3
      exact h3 rfl
    rw [h6, if_pos hF, one_mul] at h3 h4
    exact ⟨_, _, hF, h3, by rw [← h4, ← h5]⟩
  · rintro ⟨i, j, hF, hw, rfl⟩
    have h6 := ofFin_apply (fun i j => (if F i j then 1 else 0) * w i j) i j
    rw [if_pos hF, one_mul] at h6
    exact ⟨i.2, j.2, by rw [h6]; exact hw, h6.symm, rfl⟩

theorem acyclic_of_rank {N : Type} {E : List (N × N)} (rank : N → ℕ) (h : ∀ e ∈ E, rank e.2 < rank e.1) :
    Verif.Graph.Acyclic E := by
  intro v hv
  have : ∀ {a b}, Relation.TransGen (Verif.Graph.EdgeRel E) a b → rank b < rank a := by
    intro a b hab
    induction hab with
    | single h1 => exact h _ h1
    | tail _ h1 ih => exact (h _ h1).trans ih
  exact lt_irrefl _ (this hv)

/-- **C53.** For all random outcomes: if `generate_structure` returns, the result is a simple DAG on exactly the
requested nodes with weights within the range asked for. -/
theorem generateStructure_dag [FloorRing K] {n : ℕ} {degree wMin wMax : K} {graphType : String} {r : Draws K n}
    (hr : r.Uniform) {g : Graph ℕ K} (h : generateStructure n degree graphType wMin wMax r = .ok g) :
    WeightedDag n |wMin| |wMax| g := by
  obtain ⟨_, hw, flags, hf, rfl⟩ := generateStructure_edges h
  refine ⟨rfl, ?_, ofMatrix_pairs_nodup _ _, ?_, ?_⟩
  · intro e he
    obtain ⟨i, j, _, _, rfl⟩ := mem_generated.1 he
    exact ⟨i.2, j.2⟩
  · refine acyclic_of_rank (fun v => if hv : v < n then (r.perm.symm ⟨v, hv⟩ : ℕ) else 0) ?_
    rintro ⟨a, b⟩ he
    obtain ⟨e, he, hab⟩ := List.mem_map.1 he
    obtain ⟨i, j, hF, _, rfl⟩ := mem_generated.1 he
    obtain ⟨rfl, rfl⟩ := Prod.mk.inj hab
    simp only [Fin.is_lt, dif_pos, Fin.eta]
    exact Fin.lt_def.1 (edgeFlags_lower hf hF)
  · intro e he
    obtain ⟨i, j, _, _, rfl⟩ := mem_generated.1 he
    exact abs_edgeWeights (abs_nonneg _) hw hr i j

/-- Python's `round`: a nearest integer, an even one if there are two. -/
theorem pyRound_nearest [FloorRing K] (x : K) :
    |x - pyRound x| ≤ 1 / 2 ∧ (|x - pyRound x| = 1 / 2 → pyRound x % 2 = 0) := by
  have h1 := Int.floor_le x
  have h2 := Int.lt_floor_add_one x
  unfold pyRound
  dsimp only
  split_ifs with h3 h4 h5
  · rw [abs_of_nonneg (by linarith)]
    exact ⟨h3.le, fun h => absurd h h3.ne⟩
  · push_cast
    rw [abs_of_nonpos (by linarith)]
    exact ⟨by linarith, fun h => absurd h (by linarith)⟩
  · rw [abs_of_nonneg (by linarith)]
    exact ⟨not_lt.1 h4, fun _ => h5⟩
  · push_cast
    rw [abs_of_nonpos (by linarith)]
    refine ⟨by linarith, fun _ => ?_⟩
    omega

theorem pyRound_half_nonneg [FloorRing K] (d : K) : 0 ≤ pyRound (d / 2) ↔ -1 ≤ d := by
  obtain ⟨h1, h2⟩ := pyRound_nearest (d / 2)
  constructor
  · intro h
    have h3 : (0 : K) ≤ (pyRound (d / 2) : K) := by exact_mod_cast h
    have := (abs_le.1 h1).1
    linarith
  · intro h
    by_contra hc
    have h3 : pyRound (d / 2) ≤ -1 := by omega
    have h4 : (pyRound (d / 2) : K) ≤ -1 := by exact_mod_cast h3
    have h5 := (abs_le.1 h1).2
    have h6 : (pyRound (d / 2) : K) = -1 := by linarith
    have h7 : pyRound (d / 2) = -1 := by exact_mod_cast h6
    have h8 : d = -1 := by rw [h6] at h5; linarith
    have h9 := h2 (by rw [h6, h8]; norm_num [abs_of_pos])
    omega

/-- When `generate_structure` returns a graph, and that it raises only `ValueError`. -/
theorem generateStructure_total [FloorRing K] (n : ℕ) (degree wMin wMax : K) (graphType : String) (r : Draws K n) :
    ((∃ g, generateStructure n degree graphType wMin wMax r = .ok g) ↔ 2 ≤ n ∧ |wMin| ≤ |wMax| ∧
      (graphType = "erdos-renyi" ∨ graphType = "full" ∨ graphType = "barabasi-albert" ∧ -1 ≤ degree)) ∧
    ∀ e, generateStructure n degree graphType wMin wMax r = .error e → e = .valueError := by
  have key : ((∃ f, edgeFlags degree graphType r = .ok f) ↔
      (graphType = "erdos-renyi" ∨ graphType = "full" ∨ graphType = "barabasi-albert" ∧ -1 ≤ degree)) ∧
      ∀ e, edgeFlags degree graphType r = .error e → e = .valueError := by
    unfold edgeFlags
    by_cases h1 : graphType = "erdos-renyi"
    · simp [h1]
    · by_cases h2 : graphType = "barabasi-albert"
      · rw [if_neg h1, if_pos h2]
        dsimp only
        rw [← pyRound_half_nonneg]
        subst h2
        split_ifs with h3
        · simp [h3, eq_comm]
        · simp [not_lt.1 h3]
          exact ⟨_, rfl⟩
      · by_cases h3 : graphType = "full"
        · simp [h3]
        · simp [h1, h2, h3, eq_comm]
  unfold generateStructure
  by_cases hn : n < 2
  · rw [if_pos hn]
    simp [eq_comm]
    omega
  · rw [if_neg hn]
    dsimp only
    by_cases hw : |wMax| < |wMin|
    · rw [if_pos hw]
      simp [eq_comm]
      intro _ h
      exact absurd hw (not_lt.2 h)
    · rw [if_neg hw]
      have h2 : 2 ≤ n := by omega
      simp only [h2, not_lt.1 hw, true_and]
      rw [← key.1]
      cases hf : edgeFlags degree graphType r with
      | error e =>
        simp only [reduceCtorEq, exists_false, Except.error.injEq, forall_eq', true_and]
        exact key.2 e hf
      | ok f => simp

/-- The adjacent pairs of a generated structure, when zero weights are excluded. -/
theorem mem_pairs [FloorRing K] {n : ℕ} {degree wMin wMax : K} {graphType : String} {r : Draws K n}
    (hr : r.Uniform) (h0 : wMin ≠ 0) {g : Graph ℕ K} (h : generateStructure n degree graphType wMin wMax r = .ok g) :
    ∃ flags, edgeFlags degree graphType r = .ok flags ∧
      ∀ i j : Fin n, ((i : ℕ), (j : ℕ)) ∈ pairs g ↔ flags (r.perm.symm i) (r.perm.symm j) ≠ 0 := by
  obtain ⟨_, hw, flags, hf, rfl⟩ := generateStructure_edges h
  refine ⟨flags, hf, fun i j => ?_⟩
  constructor
  · intro he
    obtain ⟨e, he, hab⟩ := List.mem_map.1 he
    obtain ⟨i', j', hF, _, rfl⟩ := mem_generated.1 he
    obtain ⟨h1, h2⟩ := Prod.mk.inj hab
    rw [← Fin.ext h1, ← Fin.ext h2]
    exact hF
  · intro hF
    refine List.mem_map.2 ⟨_, mem_generated.2 ⟨i, j, hF, ?_, rfl⟩, rfl⟩
    have := (abs_edgeWeights (abs_nonneg wMin) hw hr i j).1
    intro hz
    rw [hz, abs_zero] at this
    exact h0 (abs_eq_zero.1 (le_antisymm this (abs_nonneg _)))

/-- **C53**, full graphs: any two nodes are joined by exactly one edge (in one direction, the graph being
acyclic). -/
theorem generateStructure_full [FloorRing K] {n : ℕ} {degree wMin wMax : K} {r : Draws K n}
    (hr : r.Uniform) (h0 : wMin ≠ 0) {g : Graph ℕ K} (h : generateStructure n degree "full" wMin wMax r = .ok g)
    {i j : ℕ} (hi : i < n) (hj : j < n) (hij : i ≠ j) : (i, j) ∈ pairs g ∧ (j, i) ∉ pairs g ∨
      (j, i) ∈ pairs g ∧ (i, j) ∉ pairs g := by
  obtain ⟨flags, hf, hp⟩ := mem_pairs hr h0 h
  have hf : flags = tril fun _ _ => 1 := by
    simp only [edgeFlags] at hf
    rw [if_neg (by decide), if_neg (by decide), if_pos trivial] at hf
    exact (Except.ok.inj hf).symm
  have h1 := hp ⟨i, hi⟩ ⟨j, hj⟩
  have h2 := hp ⟨j, hj⟩ ⟨i, hi⟩
  dsimp only at h1 h2
  rw [h1, h2, hf]
  have hne : r.perm.symm ⟨i, hi⟩ ≠ r.perm.symm ⟨j, hj⟩ := by
    intro h
    exact hij (Fin.mk.inj (r.perm.symm.injective h))
  unfold tril
  rcases lt_or_gt_of_ne hne with h | h
  · right
    simp [h, h.not_gt]
  · left
    simp [h, h.not_gt]

/-- **C53**, Erdős-Rényi graphs: for two nodes, the later one in a random order is joined to the earlier one
exactly if their random number is below `degree / (n - 1)`. -/
theorem generateStructure_erdos [FloorRing K] {n : ℕ} {degree wMin wMax : K} {r : Draws K n}
    (hr : r.Uniform) (h0 : wMin ≠ 0) {g : Graph ℕ K}
    (h : generateStructure n degree "erdos-renyi" wMin wMax r = .ok g) (i j : Fin n) :
    ((i : ℕ), (j : ℕ)) ∈ pairs g ↔ r.perm.symm j < r.perm.symm i ∧
      r.rand (r.perm.symm i) (r.perm.symm j) < degree / ((n : K) - 1) := by
  obtain ⟨flags, hf, hp⟩ := mem_pairs hr h0 h
  have hf : flags = tril (below r.rand (degree / ((n : K) - 1))) := by
    simp only [edgeFlags] at hf
    rw [if_pos trivial] at hf
    exact (Except.ok.inj hf).symm
  rw [hp, hf]
  unfold tril below
  split_ifs with h1 h2
  · simp [h1, h2]
  · simp [h2]
  · simp [h1]

/-- **C53**, Erdős-Rényi graphs of extreme degree: no edges for degree 0, all edges for the largest degree. -/
theorem generateStructure_erdos_extreme [FloorRing K] {n : ℕ} {degree wMin wMax : K} {r : Draws K n}
    (hr : r.Uniform) (h0 : wMin ≠ 0) {g : Graph ℕ K}
    (h : generateStructure n degree "erdos-renyi" wMin wMax r = .ok g) :
    (degree ≤ 0 → g.edges = []) ∧
    ((n : K) - 1 ≤ degree → ∀ i j, i < n → j < n → i ≠ j → (i, j) ∈ pairs g ∨ (j, i) ∈ pairs g) := by
  have hn : (0 : K) < (n : K) - 1 := by
    have := (generateStructure_edges h).1
    have : (2 : K) ≤ n := by exact_mod_cast this
    linarith
  constructor
  · intro hd
    rw [List.eq_nil_iff_forall_not_mem]
    intro e he
    have hends := (generateStructure_dag hr h).ends e he
    have h1 : (e.src, e.dst) ∈ pairs g := List.mem_map.2 ⟨e, he, rfl⟩
    have h2 := (generateStructure_erdos hr h0 h ⟨_, hends.1⟩ ⟨_, hends.2⟩).1 h1
    have h3 := (hr.rand (r.perm.symm ⟨_, hends.1⟩) (r.perm.symm ⟨_, hends.2⟩)).1
    have h4 := div_nonpos_of_nonpos_of_nonneg hd hn.le
    linarith [h2.2]
  · intro hd i j hi hj hij
    have hne : r.perm.symm ⟨i, hi⟩ ≠ r.perm.symm ⟨j, hj⟩ := by
      intro h
      exact hij (Fin.mk.inj (r.perm.symm.injective h))
    have h1 : 1 ≤ degree / ((n : K) - 1) := (one_le_div hn).2 hd
    rcases lt_or_gt_of_ne hne with h' | h'
    · right
      exact (generateStructure_erdos hr h0 h ⟨j, hj⟩ ⟨i, hi⟩).2 ⟨h', (hr.rand _ _).2.trans_le h1⟩
    · left
      exact (generateStructure_erdos hr h0 h ⟨i, hi⟩ ⟨j, hj⟩).2 ⟨h', (hr.rand _ _).2.trans_le h1⟩

/-- **C53**, Barabási-Albert graphs: every node except one has at most `round(degree / 2)` outgoing edges and, if
that number is not 0, at least one; one node has none. -/
theorem generateStructure_barabasi [FloorRing K] {n : ℕ} {degree wMin wMax : K} {r : Draws K n}
    (hr : r.Uniform) (h0 : wMin ≠ 0) {g : Graph ℕ K}
    (h : generateStructure n degree "barabasi-albert" wMin wMax r = .ok g) :
    ∃ root < n, (∀ j, (root, j) ∉ pairs g) ∧ ∀ i < n, i ≠ root →
      (((Finset.range n).filter fun j => (i, j) ∈ pairs g).card : ℤ) ≤ pyRound (degree / 2) ∧
      (pyRound (degree / 2) ≠ 0 → ∃ j, (i, j) ∈ pairs g) := by
  have hn := (generateStructure_edges h).1
  have hends := (generateStructure_dag hr h).ends
  obtain ⟨flags, hf, hp⟩ := mem_pairs hr h0 h
  have hm : 0 ≤ pyRound (degree / 2) ∧
      flags = fun i j : Fin n =>
        barabasi (K := K) (pyRound (degree / 2)).toNat r.pick (n - 1) 1 (fun _ _ => 0) [0] i j := by
    simp only [edgeFlags] at hf
    rw [if_neg (by decide), if_pos trivial] at hf
    split_ifs at hf with hm
    exact ⟨not_lt.1 hm, (Except.ok.inj hf).symm⟩
  have hrows := barabasi_rows (K := K) (pyRound (degree / 2)).toNat r.pick (n - 1) 1 (fun _ _ => 0) [0] (by simp)
    (by simp) (by simp)
  let o : Fin n := ⟨0, by omega⟩
  refine ⟨r.perm o, (r.perm o).2, ?_, ?_⟩
  · intro j hj
    have hjn : j < n := by
      obtain ⟨e, he, hab⟩ := List.mem_map.1 hj
      have := (hends e he).2
      rw [(Prod.mk.inj hab).2] at this
      exact this
    have := (hp (r.perm o) ⟨j, hjn⟩).1 hj
    rw [hm.2, Equiv.symm_apply_apply] at this
    exact this ((hrows 0).1 (Or.inl (by omega)) _)
  · intro i hi hne
    have h1 : 1 ≤ (r.perm.symm ⟨i, hi⟩ : ℕ) := by
      by_contra hc
      refine hne ?_
      have : r.perm.symm ⟨i, hi⟩ = o := Fin.ext (by change _ = 0; omega)
      rw [← this, Equiv.apply_symm_apply]
    obtain ⟨dest, hl, hlt, hb⟩ := (hrows (r.perm.symm ⟨i, hi⟩)).2 h1 (by omega)
    have hmem : ∀ j : Fin n, (i, (j : ℕ)) ∈ pairs g ↔ (r.perm.symm j : ℕ) ∈ dest := by
      intro j
      have := hp ⟨i, hi⟩ j
      dsimp only at this
      rw [this, hm.2]
      dsimp only
      rw [hb]
      split_ifs with hj <;> simp [hj]
    constructor
    · have hcard : ((Finset.range n).filter fun j => (i, j) ∈ pairs g).card ≤ dest.toFinset.card := by
        refine Finset.card_le_card_of_injOn
          (fun j => if hj : j < n then (r.perm.symm ⟨j, hj⟩ : ℕ) else 0) ?_ ?_
        · intro j hj
          rw [Finset.mem_coe, Finset.mem_filter, Finset.mem_range] at hj
          rw [Finset.mem_coe, List.mem_toFinset]
          dsimp only
          rw [dif_pos hj.1]
          exact (hmem ⟨j, hj.1⟩).1 hj.2
        · intro a ha b hb' hab
          rw [Finset.mem_coe, Finset.mem_filter, Finset.mem_range] at ha hb'
          dsimp only at hab
          rw [dif_pos ha.1, dif_pos hb'.1] at hab
          exact Fin.mk.inj (r.perm.symm.injective (Fin.ext hab))
      have := hcard.trans (List.toFinset_card_le dest)
      omega
    · intro hne0
      have : dest ≠ [] := by
        rintro rfl
        rw [List.length_nil] at hl
        omega
      obtain ⟨x, hx⟩ := List.exists_mem_of_ne_nil _ this
      have hxn : x < n := by
        have := hlt x hx
        omega
      refine ⟨r.perm ⟨x, hxn⟩, (hmem _).2 ?_⟩
      rw [Equiv.symm_apply_apply]
      exact hx

end

end Verif.Generators
