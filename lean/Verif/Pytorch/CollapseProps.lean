import Verif.Pytorch.Collapse

/-!
# Collapsed adjacency and acyclicity score (C62, C78)
-/

namespace Verif.Pytorch

/-- How the `d` columns belong to the `n` variables: every variable has its original column first, every column belongs to exactly
one variable. -/
structure Layout (es : List Enc) (n d : ℕ) : Prop where
  idx : (es.map Enc.idx).Perm (List.range n)
  cols : (es.flatMap Enc.cols).Perm (List.range d)
  head : ∀ e ∈ es, e.cols.head? = some e.idx
  pos : 0 < n

theorem prepare_isLayout {X : Frame} {schema : Option (List (ℕ × Alias))} {t : Notears.Tabu ℕ} {p : Prep} (hwf : X.WF)
    (hd : SchemaDict schema) (h : prepareChecked X schema t = .ok p) : Layout p.encs X.cols p.data.cols := by
  obtain ⟨h1, h2, h3, -, -⟩ := prepare_layout X schema t p hwf hd h
  obtain ⟨-, hpos, -, hperm⟩ := prepareChecked_ok h hd
  refine ⟨?_, h2, fun e he => (h3 e he).2.1, hpos⟩
  have : p.encs.map Enc.idx = (schemaOf X schema).map Prod.fst := by rw [← h1, List.map_map]; rfl
  rw [this]; exact hperm

section
variable {es : List Enc} {n d : ℕ}

theorem Layout.nodup (h : Layout es n d) : (es.flatMap Enc.cols).Nodup := h.cols.nodup_iff.2 List.nodup_range

theorem Layout.var (h : Layout es n d) {u : ℕ} (hu : u < n) : ∃ e ∈ es, e.idx = u := by
  have := h.idx.mem_iff.2 (List.mem_range.2 hu)
  simpa using this

theorem Layout.idx_lt (h : Layout es n d) {e : Enc} (he : e ∈ es) : e.idx < n :=
  List.mem_range.1 (h.idx.mem_iff.1 (List.mem_map_of_mem he))

theorem Layout.idx_inj (h : Layout es n d) {e f : Enc} (he : e ∈ es) (hf : f ∈ es) (hi : e.idx = f.idx) : e = f :=
  List.inj_on_of_nodup_map (h.idx.nodup_iff.2 List.nodup_range) he hf hi

theorem Layout.owner (h : Layout es n d) {k : ℕ} (hk : k < d) : ∃ e ∈ es, k ∈ e.cols := by
  simpa [List.mem_flatMap] using h.cols.mem_iff.2 (List.mem_range.2 hk)

theorem Layout.col_lt (h : Layout es n d) {e : Enc} (he : e ∈ es) {k : ℕ} (hk : k ∈ e.cols) : k < d :=
  List.mem_range.1 (h.cols.mem_iff.1 (List.mem_flatMap.2 ⟨e, he, hk⟩))

theorem Layout.owner_unique (h : Layout es n d) {e f : Enc} (he : e ∈ es) (hf : f ∈ es) {k : ℕ} (h1 : k ∈ e.cols)
    (h2 : k ∈ f.cols) : e = f := by
  obtain ⟨l, r, rfl⟩ := List.append_of_mem he
  have hn := h.nodup
  rw [List.flatMap_append, List.flatMap_cons, List.nodup_append, List.nodup_append] at hn
  rcases List.mem_append.1 hf with hf | hf
  · exact absurd rfl (hn.2.2 k (List.mem_flatMap.2 ⟨f, hf, h2⟩) k (List.mem_append_left _ h1))
  · rcases List.mem_cons.1 hf with rfl | hf
    · rfl
    · exact absurd rfl (hn.2.1.2.2 k h1 k (List.mem_flatMap.2 ⟨f, hf, h2⟩))

theorem originalSize_eq (h : Layout es n d) : originalSize es = n := by
  unfold originalSize
  have key : ∀ (l : List ℕ) (a : ℕ), l.foldl max a = max a (l.foldl max 0) := by
    intro l
    induction l with
    | nil => intro a; simp
    | cons x l ih => intro a; rw [List.foldl_cons, List.foldl_cons, ih, ih (max 0 x)]; omega
  have hle : ∀ (l : List ℕ), (∀ x ∈ l, x ≤ l.foldl max 0) ∧ (l = [] ∨ l.foldl max 0 ∈ l) := by
    intro l
    induction l with
    | nil => simp
    | cons x l ih =>
      rw [List.foldl_cons, key]
      refine ⟨?_, Or.inr ?_⟩
      · intro y hy
        rcases List.mem_cons.1 hy with rfl | hy
        · omega
        · have := ih.1 y hy; omega
      · rcases ih.2 with rfl | h
        · simp
        · rcases le_total (l.foldl max 0) x with h' | h'
          · rw [show max (max 0 x) (l.foldl max 0) = x by omega]; exact List.mem_cons_self
          · rw [show max (max 0 x) (l.foldl max 0) = l.foldl max 0 by omega]; exact List.mem_cons_of_mem _ h
  obtain ⟨h1, h2⟩ := hle (es.map Enc.idx)
  have hm : n - 1 ∈ es.map Enc.idx := h.idx.mem_iff.2 (List.mem_range.2 (by have := h.pos; omega))
  have h3 := h1 _ hm
  rcases h2 with h2 | h2
  · rw [h2] at hm; simp at hm
  · have := List.mem_range.1 (h.idx.mem_iff.1 h2)
    have := h.pos
    omega

/-- **C62**: the collapsed entry between two variables is the sum over all pairs of their columns; if no entry is negative, it is
nonzero exactly if some entry between their columns is. -/
theorem collapse_blocks (h : Layout es n d) (A : ℕ → ℕ → ℝ) {e f : Enc} (he : e ∈ es) (hf : f ∈ es) :
    collapseAll es A e.idx f.idx = ∑ a ∈ e.cols.toFinset, ∑ b ∈ f.cols.toFinset, A a b ∧
    ((∀ a b, 0 ≤ A a b) → (0 ≤ collapseAll es A e.idx f.idx ∧
      (collapseAll es A e.idx f.idx ≠ 0 ↔ ∃ a ∈ e.cols, ∃ b ∈ f.cols, A a b ≠ 0))) := by
  have hn : ∀ g ∈ es, g.cols.Nodup := fun g hg => (List.nodup_flatMap.1 h.nodup).1 g hg
  have heq : collapseAll es A e.idx f.idx = ∑ a ∈ e.cols.toFinset, ∑ b ∈ f.cols.toFinset, A a b := by
    rw [collapseAll_covers es A h.nodup h.head e.idx f.idx e.cols f.cols (Or.inl ⟨e, he, rfl, rfl⟩) (Or.inl ⟨f, hf, rfl, rfl⟩)]
    unfold blockSum
    rw [List.sum_toFinset _ (hn e he)]
    congr 1
    refine List.map_congr_left fun a _ => ?_
    rw [List.sum_toFinset _ (hn f hf)]
  refine ⟨heq, fun hA => ?_⟩
  rw [heq]
  refine ⟨Finset.sum_nonneg fun a _ => Finset.sum_nonneg fun b _ => hA a b, ?_⟩
  rw [Ne, Finset.sum_eq_zero_iff_of_nonneg (fun a _ => Finset.sum_nonneg fun b _ => hA a b)]
  push Not
  constructor
  · rintro ⟨a, ha, hb⟩
    rw [Ne, Finset.sum_eq_zero_iff_of_nonneg (fun b _ => hA a b)] at hb
    push Not at hb
    obtain ⟨b, hb, hab⟩ := hb
    exact ⟨a, by simpa using ha, b, by simpa using hb, hab⟩
  · rintro ⟨a, ha, b, hb, hab⟩
    refine ⟨a, by simpa using ha, ?_⟩
    rw [Ne, Finset.sum_eq_zero_iff_of_nonneg (fun b _ => hA a b)]
    push Not
    exact ⟨b, by simpa using hb, hab⟩

end

/-! ### The score -/

/-- Some column of the variable `u` has a nonzero weight of the first layer into some column of the variable `v`. -/
def WeightEdge (a : Arch) (w : List ℝ) (es : List Enc) (u v : ℕ) : Prop :=
  ∃ e ∈ es, ∃ f ∈ es, e.idx = u ∧ f.idx = v ∧ ∃ i ∈ e.cols, ∃ j ∈ f.cols, ∃ h < a.m1, w.getD (a.pos j h i) 0 ≠ 0

theorem squareWeights_nonneg (a : Arch) (n : Net) (i j : ℕ) : 0 ≤ squareWeights a n i j :=
  Finset.sum_nonneg fun _ _ => mul_self_nonneg _

theorem squareWeights_ne_zero (a : Arch) (w : List ℝ) {i j : ℕ} (hi : i < a.d) (hj : j < a.d) :
    squareWeights a (a.net w) i j ≠ 0 ↔ ∃ h < a.m1, w.getD (a.pos j h i) 0 ≠ 0 := by
  unfold squareWeights
  rw [Ne, Finset.sum_eq_zero_iff_of_nonneg (fun _ _ => mul_self_nonneg _)]
  push Not
  constructor
  · rintro ⟨h, hh, hne⟩
    have hh' := Finset.mem_range.1 hh
    refine ⟨h, hh', ?_⟩
    have := a.net_weight w (a.pos_lt hi hj hh')
    unfold Arch.pos at this ⊢
    rw [this] at hne
    exact left_ne_zero_of_mul hne
  · rintro ⟨h, hh, hne⟩
    refine ⟨h, Finset.mem_range.2 hh, ?_⟩
    have := a.net_weight w (a.pos_lt hi hj hh)
    unfold Arch.pos at this hne
    rw [this]
    exact mul_ne_zero hne hne

variable {es : List Enc} {n : ℕ} {a : Arch}

/-- The matrix of which the score is taken. -/
noncomputable def varMatrix (a : Arch) (es : List Enc) (w : List ℝ) (n : ℕ) : Matrix (Fin n) (Fin n) ℝ :=
  Matrix.of fun i j => collapseAll es (squareWeights a (a.net w)) i j

theorem hFunc_eq (h : Layout es n a.d) (w : List ℝ) : hFunc a es (a.net w) = Notears.polyScore (varMatrix a es w n) := by
  unfold hFunc varMatrix
  rw [originalSize_eq h]

theorem varMatrix_entry (h : Layout es n a.d) (w : List ℝ) (u v : Fin n) :
    0 ≤ varMatrix a es w n u v ∧ (varMatrix a es w n u v ≠ 0 ↔ WeightEdge a w es u v) := by
  obtain ⟨e, he, hu⟩ := h.var u.2
  obtain ⟨f, hf, hv⟩ := h.var v.2
  obtain ⟨h1, h2⟩ := (collapse_blocks h (squareWeights a (a.net w)) he hf).2 (squareWeights_nonneg a _)
  rw [hu, hv] at h1 h2
  refine ⟨h1, ?_⟩
  change collapseAll es (squareWeights a (a.net w)) u v ≠ 0 ↔ _
  rw [h2]
  constructor
  · rintro ⟨i, hi, j, hj, hne⟩
    exact ⟨e, he, f, hf, hu, hv, i, hi, j, hj, (squareWeights_ne_zero a w (h.col_lt he hi) (h.col_lt hf hj)).1 hne⟩
  · rintro ⟨e', he', f', hf', hu', hv', i, hi, j, hj, hh⟩
    obtain rfl := h.idx_inj he he' (hu.trans hu'.symm)
    obtain rfl := h.idx_inj hf hf' (hv.trans hv'.symm)
    exact ⟨i, hi, j, hj, (squareWeights_ne_zero a w (h.col_lt he hi) (h.col_lt hf hj)).2 hh⟩

theorem transGen_fin {R : ℕ → ℕ → Prop} (hR : ∀ u v, R u v → u < n ∧ v < n) {u v : ℕ} (h : Relation.TransGen R u v) :
    ∃ (hu : u < n) (hv : v < n), Relation.TransGen (fun a b : Fin n => R a b) ⟨u, hu⟩ ⟨v, hv⟩ := by
  induction h with
  | single h => exact ⟨(hR _ _ h).1, (hR _ _ h).2, .single h⟩
  | tail _ h ih =>
    obtain ⟨hu, hv, ih⟩ := ih
    exact ⟨hu, (hR _ _ h).2, ih.tail h⟩

theorem transGen_of_fin {R : ℕ → ℕ → Prop} {u v : Fin n} (h : Relation.TransGen (fun a b : Fin n => R a b) u v) :
    Relation.TransGen R u v := by
  induction h with
  | single h => exact .single h
  | tail _ h ih => exact ih.tail h

/-- **C62**: the acyclicity score of the network is never negative, and it is zero exactly if the graph between the variables, with
an edge wherever some column of one has a nonzero weight into some column of the other, has no directed cycle. -/
theorem hFunc_zero_iff (h : Layout es n a.d) (w : List ℝ) :
    0 ≤ hFunc a es (a.net w) ∧
      (hFunc a es (a.net w) = 0 ↔ ∀ u, ¬ Relation.TransGen (WeightEdge a w es) u u) := by
  have : Nonempty (Fin n) := ⟨⟨0, h.pos⟩⟩
  rw [hFunc_eq h]
  refine ⟨Notears.polyScore_nonneg _ fun i j => (varMatrix_entry h w i j).1, ?_⟩
  rw [Notears.polyScore_eq_zero_iff _ fun i j => (varMatrix_entry h w i j).1]
  unfold Notears.NoCycle
  have hrel : (fun u v : Fin n => varMatrix a es w n u v ≠ 0) = fun u v : Fin n => WeightEdge a w es u v := by
    funext u v; exact propext (varMatrix_entry h w u v).2
  rw [hrel]
  have hR : ∀ u v, WeightEdge a w es u v → u < n ∧ v < n := by
    rintro u v ⟨e, he, f, hf, rfl, rfl, -⟩
    exact ⟨h.idx_lt he, h.idx_lt hf⟩
  constructor
  · intro hc u hu
    obtain ⟨h1, h2, h3⟩ := transGen_fin hR hu
    exact hc _ h3
  · intro hc u hu
    exact hc _ (transGen_of_fin hu)

/-- A cycle of length `k` between the variables, each step with a sum of squares of at least `t²`, contributes
`C(n, k) k t^(2k) / n^k` to the score. -/
theorem hFunc_no_cycle (h : Layout es n a.d) (w : List ℝ) (t : ℝ)
    (hk : ∀ k, 0 < k → k ≤ n → hFunc a es (a.net w) < n.choose k * k * t ^ (2 * k) / (n : ℝ) ^ k) :
    ∀ u, ¬ Relation.TransGen (fun u v => ∃ e ∈ es, ∃ f ∈ es, e.idx = u ∧ f.idx = v ∧
      ∃ i ∈ e.cols, ∃ j ∈ f.cols, t ^ 2 ≤ squareWeights a (a.net w) i j) u u := by
  have : Nonempty (Fin n) := ⟨⟨0, h.pos⟩⟩
  intro u hu
  obtain ⟨hlt, hlt2, hcyc⟩ := transGen_fin (n := n) (by
    rintro u v ⟨e, he, f, hf, rfl, rfl, -⟩
    exact ⟨h.idx_lt he, h.idx_lt hf⟩) hu
  obtain ⟨k, c, k0, hc, hwalk, hinj⟩ := Notears.simple_cycle hcyc
  have hkn : k ≤ n := by simpa using Notears.card_of_injOn hinj
  have hnn : ∀ i j, 0 ≤ varMatrix a es w n i j := fun i j => (varMatrix_entry h w i j).1
  have hstep : ∀ s < k, t ^ 2 ≤ varMatrix a es w n (c s) (c (s + 1)) := by
    intro s hs
    obtain ⟨e, he, f, hf, hu, hv, i, hi, j, hj, hle⟩ := hwalk s hs
    have hb := (collapse_blocks h (squareWeights a (a.net w)) he hf).1
    rw [hu, hv] at hb
    change t ^ 2 ≤ collapseAll es (squareWeights a (a.net w)) (c s) (c (s + 1))
    rw [hb]
    refine hle.trans ?_
    have h1 : squareWeights a (a.net w) i j ≤ ∑ b ∈ f.cols.toFinset, squareWeights a (a.net w) i b :=
      Finset.single_le_sum (f := fun b => squareWeights a (a.net w) i b) (fun b _ => squareWeights_nonneg a _ i b) (by simpa using hj)
    exact h1.trans (Finset.single_le_sum (f := fun a' => ∑ b ∈ f.cols.toFinset, squareWeights a (a.net w) a' b)
      (fun b _ => Finset.sum_nonneg fun _ _ => squareWeights_nonneg a _ _ _) (by simpa using hi))
  have hprod : t ^ (2 * k) ≤ ∏ s ∈ Finset.range k, varMatrix a es w n (c s) (c (s + 1)) := by
    rw [pow_mul]
    have := Finset.prod_le_prod (s := Finset.range k) (f := fun _ => t ^ 2) (g := fun s => varMatrix a es w n (c s) (c (s + 1)))
      (fun _ _ => sq_nonneg t) (fun s hs => hstep s (Finset.mem_range.1 hs))
    simpa using this
  have htr := Notears.cycle_le_trace hnn hc hinj
  have hexp := Notears.polyScore_expand (varMatrix a es w n)
  rw [← hFunc_eq h] at hexp
  simp only [Fintype.card_fin] at hexp
  obtain ⟨m, rfl⟩ : ∃ m, k = m + 1 := ⟨k - 1, by omega⟩
  have hterm : (n.choose (m + 1) : ℝ) * ((n : ℝ)⁻¹ ^ (m + 1) * Matrix.trace (varMatrix a es w n ^ (m + 1))) ≤ hFunc a es (a.net w) := by
    rw [hexp]
    refine Finset.single_le_sum (f := fun k => (n.choose (k + 1) : ℝ) * ((n : ℝ)⁻¹ ^ (k + 1) * Matrix.trace (varMatrix a es w n ^ (k + 1))))
      (fun k _ => ?_) (Finset.mem_range.2 (by omega))
    have := Notears.trace_pow_nonneg hnn (k + 1)
    positivity
  have hlow : ((m + 1 : ℕ) : ℝ) * t ^ (2 * (m + 1)) ≤ Matrix.trace (varMatrix a es w n ^ (m + 1)) :=
    (mul_le_mul_of_nonneg_left hprod (by positivity)).trans htr
  have := hk (m + 1) (by omega) hkn
  have hle : (n.choose (m + 1) : ℝ) * ((m + 1 : ℕ) : ℝ) * t ^ (2 * (m + 1)) / (n : ℝ) ^ (m + 1) ≤
      (n.choose (m + 1) : ℝ) * ((n : ℝ)⁻¹ ^ (m + 1) * Matrix.trace (varMatrix a es w n ^ (m + 1))) := by
    have := mul_le_mul_of_nonneg_left (mul_le_mul_of_nonneg_left hlow (by positivity : 0 ≤ (n : ℝ)⁻¹ ^ (m + 1)))
      (by positivity : (0 : ℝ) ≤ (n.choose (m + 1) : ℝ))
    refine le_of_eq_of_le ?_ this
    rw [inv_pow]
    ring
  linarith

/-- Without hidden layers the sum of squares is the square of the adjacency. -/
theorem squareWeights_linear (hl : a.dims.length ≤ 2) (net : Net) (rows : List (ℕ → ℝ)) (i j : ℕ) :
    squareWeights a net i j = adjacency a net rows i j ^ 2 := by
  unfold squareWeights adjacency
  rw [a.m1_linear hl, if_pos hl, sq_abs, Finset.sum_range_one, mul_one, add_zero, sq]

end Verif.Pytorch
