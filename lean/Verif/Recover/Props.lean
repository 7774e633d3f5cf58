import Verif.Recover.Spec

/-!
# C137: consistency of NOTEARS
-/

namespace Verif.Recover

open MeasureTheory ProbabilityTheory Verif.Notears Verif.Generators

/-! ### NOTEARS on data whose errors are nearly of the same size -/

theorem learns_of_equal {d : ℕ} {V : ℕ → ℕ → ℝ} {ε : ℝ} (hV : AcyclicWeights d V) (hε : 0 < ε) {v : ℝ} (hv : 0 < v) :
    ∃ δ > 0, ∃ δ' > 0, ∀ X : Data ℝ, X.cols = d → EqualErrors X V v δ' → Learns X V ε δ ∧ LearnsLasso X V ε δ := by
  obtain ⟨δ₁, h₁, r₁⟩ := notears_recovers hV hε
  obtain ⟨δ₂, h₂, r₂⟩ := notearsLasso_recovers hV hε
  refine ⟨min (min δ₁ δ₂) (δ₂ * v), by positivity, min δ₁ δ₂ * v, by positivity, ?_⟩
  rintro X rfl hE
  have hE1 : EqualErrors X V v (δ₁ * v) := fun j hj k hk => (hE j hj k hk).trans (mul_le_mul_of_nonneg_right (min_le_left _ _) hv.le)
  have hE2 : EqualErrors X V v (δ₂ * v) := fun j hj k hk => (hE j hj k hk).trans (mul_le_mul_of_nonneg_right (min_le_right _ _) hv.le)
  constructor
  · intro minimize fuel a L hm h hmax hopt hw ht
    exact r₁ X v minimize fuel a L rfl hv hE1 hm h hmax hopt hw (ht.trans ((min_le_left _ _).trans (min_le_left _ _)))
  · intro minimize fuel beta a L w₀ hm h hmax hw₁ hw₂ hb hb' hopt hw ht
    exact r₂ X v minimize fuel beta a L w₀ rfl hv hE2 hm h hmax hw₁ hw₂ hb (hb'.trans (min_le_right _ _)) hopt hw
      (ht.trans ((min_le_left _ _).trans (min_le_right _ _)))

/-! ### The generated array -/

section
variable {N : Type} [DecidableEq N]

theorem weights_eq {g : SemGraph N} (hg : g.WF) {i j : ℕ} {u v : N} {w : ℝ} (hi : g.nodes[i]? = some u) (hj : g.nodes[j]? = some v)
    (he : (u, v, some w) ∈ g.edges) : weights g i j = w := by
  unfold weights
  cases hf : g.edges.find? fun e => g.nodes[i]? = some e.1 ∧ g.nodes[j]? = some e.2.1 with
  | none =>
    have := List.find?_eq_none.1 hf _ he
    simp [hi, hj] at this
  | some e =>
    have h1 := List.find?_some hf
    have h2 := List.mem_of_find?_eq_some hf
    simp only [hi, hj, Option.some.injEq, decide_eq_true_eq] at h1
    have : e = (u, v, some w) := List.inj_on_of_nodup_map hg.edges h2 he (by simp [← h1.1, ← h1.2])
    rw [this]
    rfl

theorem weights_ne {g : SemGraph N} {i j : ℕ} (h : weights g i j ≠ 0) :
    ∃ u v w, g.nodes[i]? = some u ∧ g.nodes[j]? = some v ∧ (u, v, some w) ∈ g.edges := by
  unfold weights at h
  cases hf : g.edges.find? fun e => g.nodes[i]? = some e.1 ∧ g.nodes[j]? = some e.2.1 with
  | none => rw [hf] at h; simp at h
  | some e =>
    have h1 := List.find?_some hf
    have h2 := List.mem_of_find?_eq_some hf
    simp only [decide_eq_true_eq] at h1
    rw [hf] at h
    obtain ⟨a, b, o⟩ := e
    cases o with
    | none => simp at h
    | some w => exact ⟨a, b, w, h1.1, h1.2, h2⟩

theorem weights_acyclic {g : SemGraph N} (ha : Verif.Graph.Acyclic g.pairs) : AcyclicWeights g.nodes.length (weights g) := by
  intro i hc
  have key : ∀ a b : Fin g.nodes.length, Relation.TransGen (fun a b : Fin g.nodes.length => weights g a b ≠ 0) a b →
      Relation.TransGen (Verif.Graph.EdgeRel g.pairs) g.nodes[a] g.nodes[b] := by
    have hstep : ∀ a b : Fin g.nodes.length, weights g a b ≠ 0 → Verif.Graph.EdgeRel g.pairs g.nodes[a] g.nodes[b] := by
      intro a b h
      obtain ⟨u, v, w, h1, h2, h3⟩ := weights_ne h
      rw [List.getElem?_eq_getElem a.2] at h1
      rw [List.getElem?_eq_getElem b.2] at h2
      have h1 := Option.some.inj h1
      have h2 := Option.some.inj h2
      change (g.nodes[(a : ℕ)], g.nodes[(b : ℕ)]) ∈ g.pairs
      rw [h1, h2]
      exact List.mem_map.2 ⟨_, h3, rfl⟩
    intro a b h
    induction h with
    | single h => exact .single (hstep _ _ h)
    | tail _ h ih => exact ih.tail (hstep _ _ h)
  exact ha _ (key i i hc)

theorem asData_val {n : ℕ} (cols : List (Col n)) {i j : ℕ} (hi : i < n) (hj : j < cols.length) :
    (asData cols).val i j = cols[j] ⟨i, hi⟩ := by
  change ((cols[j]?.bind fun c => if h : i < n then some (c ⟨i, h⟩) else none)).getD 0 = _
  rw [List.getElem?_eq_getElem hj]
  simp [hi]

/-- The errors of the equations are the noise. -/
theorem generated_errors {n : ℕ} {C : Type} {E : Outside N n C} {g : SemGraph N} (hE : E.OK g) (hg : g.WF)
    (ha : Verif.Graph.Acyclic g.pairs) (hw : ∀ e ∈ g.edges, ∃ w, e.2.2 = some w) {distribution : String}
    (hd : distribution ∈ knownDistributions) (hk : E.kernel = none) :
    ∃ cols, continuousData E g distribution 1 false = .ok cols ∧ cols.length = g.nodes.length ∧
      ∀ (i : Fin n) (j : Fin g.nodes.length), (asData cols).residual (weights g) i j = E.draws.noise distribution 1 g.nodes[j] 0 i := by
  obtain ⟨val, W, b, h1, h2, h3, h4⟩ := continuousData_linear hE hg ha hd hk 1 false
  refine ⟨_, h1, by simp, fun i j => ?_⟩
  have hval : ∀ k : Fin g.nodes.length, (asData (g.nodes.map val)).val i k = val g.nodes[k] i := by
    intro k
    rw [asData_val _ i.2 (by simpa using k.2)]
    simp
  have hv := h4 g.nodes[j] (List.getElem_mem _) i
  have hnoise : noiseOf g E.draws 1 distribution g.nodes[j] 0 i = E.draws.noise distribution 1 g.nodes[j] 0 i := by
    unfold noiseOf
    simp
  rw [hnoise, h3 rfl, add_zero] at hv
  unfold Data.residual
  rw [hval, hv]
  have hcols : (asData (g.nodes.map val)).cols = g.nodes.length := by simp [asData]
  rw [hcols, Finset.sum_range, add_sub_right_comm, Finset.sum_congr rfl fun k _ => by rw [hval k]]
  suffices h : ((g.preds g.nodes[j]).map fun u => W u g.nodes[j] * val u i).sum =
      ∑ k : Fin g.nodes.length, val g.nodes[k] i * weights g k j by rw [h]; ring
  have hnd : (g.preds g.nodes[j]).Nodup := by
    unfold SemGraph.preds
    refine List.Nodup.map_on ?_ (List.Nodup.filter _ (List.Nodup.of_map _ hg.edges))
    intro x hx y hy hxy
    rw [List.mem_filter] at hx hy
    have hx2 := of_decide_eq_true hx.2
    have hy2 := of_decide_eq_true hy.2
    exact List.inj_on_of_nodup_map hg.edges hx.1 hy.1 (by simp [hxy, hx2, hy2])
  rw [← List.sum_toFinset _ hnd]
  have hj : g.nodes[(j : ℕ)]? = some g.nodes[j] := List.getElem?_eq_getElem j.2
  symm
  refine Finset.sum_bij_ne_zero (fun k _ _ => g.nodes[k]) ?_ ?_ ?_ ?_
  · intro k _ hk
    obtain ⟨u, v, w, e1, e2, e3⟩ := weights_ne (right_ne_zero_of_mul hk)
    rw [List.getElem?_eq_getElem k.2] at e1
    rw [hj] at e2
    have e1 := Option.some.inj e1
    have e2 := Option.some.inj e2
    rw [List.mem_toFinset]
    change g.nodes[(k : ℕ)] ∈ _
    rw [e1]
    exact List.mem_map.2 ⟨_, List.mem_filter.2 ⟨e3, by simp [← e2]⟩, rfl⟩
  · intro k _ _ k' _ _ h
    exact Fin.ext ((List.Nodup.getElem_inj_iff hg.nodes).1 h)
  · intro u hu hne
    rw [List.mem_toFinset] at hu
    obtain ⟨⟨a, c, o⟩, he, rfl⟩ := List.mem_map.1 hu
    rw [List.mem_filter] at he
    have hc : c = g.nodes[j] := of_decide_eq_true he.2
    obtain ⟨w, ho⟩ := hw _ he.1
    simp only at ho
    subst ho
    obtain ⟨k, hk, hk'⟩ := List.getElem_of_mem (hg.ends (a, c) (List.mem_map.2 ⟨_, he.1, rfl⟩)).1
    have hwk : weights g k j = w := weights_eq hg (by rw [List.getElem?_eq_getElem hk, hk']) (by rw [hj, hc]) he.1
    have hWk : W a g.nodes[j] = w := by rw [← hc]; exact h2 a c (some w) he.1
    refine ⟨⟨k, hk⟩, Finset.mem_univ _, ?_, hk'⟩
    change val g.nodes[k] i * weights g k j ≠ 0
    rw [hwk, hk', mul_comm, ← hWk]
    exact hne
  · intro k _ hk
    obtain ⟨u, v, w, e1, e2, e3⟩ := weights_ne (right_ne_zero_of_mul hk)
    have hwk := weights_eq hg e1 e2 e3
    rw [List.getElem?_eq_getElem k.2] at e1
    rw [hj] at e2
    have e1 : g.nodes[k] = u := Option.some.inj e1
    have e2 := Option.some.inj e2
    rw [hwk, e1, e2, h2 u v (some w) e3, mul_comm]
    rfl

end

/-! ### Theorems -/

/-- **C137**, generated data: let the noise be independent with mean 0, mean square `v` and finite fourth moment.  Then, up to a
probability of at most `c / n`, NOTEARS learns from the `n` rows of `generate_continuous_data`, with the default noise scale and
without intercepts, the graph the data were generated from. -/
theorem generated_learned {N : Type} [DecidableEq N] {g : SemGraph N} (hg : g.WF) (ha : Verif.Graph.Acyclic g.pairs)
    (hw : ∀ e ∈ g.edges, ∃ w, e.2.2 = some w) {distribution : String} (hd : distribution ∈ knownDistributions) {ν : Measure ℝ} {v : ℝ}
    (hv : 0 < v) (hν : Centred ν v) {ε : ℝ} (hε : 0 < ε) :
    ∃ δ > 0, ∃ c : ℝ, ∀ (n : ℕ) (C Ω : Type) (_ : MeasurableSpace Ω) (P : Measure Ω) (E : Ω → Outside N n C), 0 < n →
      IsProbabilityMeasure P → (∀ ω, (E ω).OK g ∧ (E ω).kernel = none) →
      Iid P ν (fun (p : {u // u ∈ g.nodes} × Fin n) ω => (E ω).draws.noise distribution 1 p.1 0 p.2) →
      P {ω | ¬ ∃ cols, continuousData (E ω) g distribution 1 false = .ok cols ∧ Learns (asData cols) (weights g) ε δ ∧
        LearnsLasso (asData cols) (weights g) ε δ} ≤ ENNReal.ofReal (c / n) := by
  obtain ⟨δ, hδ, δ', hδ', hlearn⟩ := learns_of_equal (weights_acyclic ha) hε hv
  refine ⟨δ, hδ, g.nodes.length ^ 2 * (∫ x, x ^ 4 ∂ν) / δ' ^ 2, ?_⟩
  intro n C Ω _ P E hn hP hE hI
  choose cols h1 h2 h3 using fun ω => generated_errors (hE ω).1 hg ha hw hd (hE ω).2
  let ξ : ℕ → ℕ → Ω → ℝ := fun i j ω =>
    if hi : i < n then if hj : j < g.nodes.length then (E ω).draws.noise distribution 1 g.nodes[j] 0 ⟨i, hi⟩ else 0 else 0
  have hξ : ∀ i j (hi : i < n) (hj : j < g.nodes.length), ξ i j = fun ω => (E ω).draws.noise distribution 1 g.nodes[j] 0 ⟨i, hi⟩ := by
    intro i j hi hj
    funext ω
    simp only [ξ, hi, hj, dif_pos]
  have hX : HasErrors n g.nodes.length (weights g) ξ fun ω => asData (cols ω) := by
    refine ⟨fun ω => rfl, fun ω => h2 ω, fun ω i hi j hj => ?_⟩
    rw [hξ i j hi hj]
    exact h3 ω ⟨i, hi⟩ ⟨j, hj⟩
  let q : ∀ i j, i < n → j < g.nodes.length → {u // u ∈ g.nodes} × Fin n := fun i j hi hj => (⟨g.nodes[j], List.getElem_mem _⟩, ⟨i, hi⟩)
  have hq : ∀ i j k (hi : i < n) (hj : j < g.nodes.length) (hk : k < g.nodes.length), q i j hi hj = q i k hi hk ↔ j = k := by
    intro i j k hi hj hk
    simp only [q, Prod.mk.injEq, Subtype.mk.injEq, and_true]
    exact List.Nodup.getElem_inj_iff hg.nodes
  have hq' : ∀ i i' j k (hi : i < n) (hi' : i' < n) (hj : j < g.nodes.length) (hk : k < g.nodes.length), i ≠ i' →
      q i j hi hj ≠ q i' k hi' hk := by
    intro i i' j k hi hi' hj hk hne heq
    simp only [q, Prod.mk.injEq, Fin.mk.injEq] at heq
    exact hne heq.2
  have hlik := equalErrors_likely hn hX (P := P) (v := v) (K := ∫ x, x ^ 4 ∂ν)
    (fun i hi j hj k hk => by rw [hξ i j hi hj, hξ i k hi hk]; exact hI.product_memLp hν (q i j hi hj) (q i k hi hk))
    (fun i hi i' hi' hne j hj k hk => by
      rw [hξ i j hi hj, hξ i k hi hk, hξ i' j hi' hj, hξ i' k hi' hk]
      exact hI.product_indep (i := q i j hi hj) (j := q i k hi hk) (k := q i' j hi' hj) (l := q i' k hi' hk)
        (hq' _ _ _ _ hi hi' hj hj hne) (hq' _ _ _ _ hi hi' hj hk hne) (hq' _ _ _ _ hi hi' hk hj hne) (hq' _ _ _ _ hi hi' hk hk hne))
    (fun i hi j hj k hk => by
      rw [hξ i j hi hj, hξ i k hi hk]
      have := hI.product_mean hν (q i j hi hj) (q i k hi hk)
      simp only [hq] at this
      exact this)
    (fun i hi j hj k hk => by rw [hξ i j hi hj, hξ i k hi hk]; exact hI.product_square hν (q i j hi hj) (q i k hi hk)) hδ'
  refine (measure_mono ?_).trans (hlik.trans (ENNReal.ofReal_le_ofReal (le_of_eq ?_)))
  · intro ω hω hE'
    exact hω ⟨cols ω, h1 ω, hlearn _ (h2 ω) hE'⟩
  · have : (n : ℝ) ≠ 0 := by exact_mod_cast hn.ne'
    have := hδ'.ne'
    field_simp

/-- What `SameEdges` means for the graph the data were generated from. -/
theorem sameEdges_graph {N : Type} [DecidableEq N] {g : SemGraph N} (hg : g.WF) (hw : ∀ e ∈ g.edges, ∃ w, e.2.2 = some w ∧ w ≠ 0) {ε : ℝ}
    {L : Verif.Notears.Graph ℕ ℝ} (h : SameEdges g.nodes.length (weights g) ε L) :
    (∀ i j, (∃ x o, (⟨i, j, x, o⟩ : Edge ℕ ℝ) ∈ L.edges) ↔ ∃ u v, g.nodes[i]? = some u ∧ g.nodes[j]? = some v ∧ (u, v) ∈ g.pairs) ∧
    ∀ i j x o u v w, (⟨i, j, x, o⟩ : Edge ℕ ℝ) ∈ L.edges → g.nodes[i]? = some u → g.nodes[j]? = some v → (u, v, some w) ∈ g.edges →
      |x - w| < ε := by
  constructor
  · intro i j
    rw [h.1]
    constructor
    · rintro ⟨-, -, hne⟩
      obtain ⟨u, v, w, h1, h2, h3⟩ := weights_ne hne
      exact ⟨u, v, h1, h2, List.mem_map.2 ⟨_, h3, rfl⟩⟩
    · rintro ⟨u, v, h1, h2, h3⟩
      obtain ⟨⟨a, b, o⟩, he, heq⟩ := List.mem_map.1 h3
      obtain ⟨w, ho, hw0⟩ := hw _ he
      simp only [Prod.mk.injEq] at heq ho
      obtain ⟨rfl, rfl⟩ := heq
      subst ho
      refine ⟨(List.getElem?_eq_some_iff.1 h1).1, (List.getElem?_eq_some_iff.1 h2).1, ?_⟩
      rw [weights_eq hg h1 h2 he]
      exact hw0
  · intro i j x o u v w he h1 h2 h3
    have := h.2 i j x o he
    rwa [weights_eq hg h1 h2 h3] at this

/-- **C137**, growing data: let the rows of data follow acyclic linear equations with the weights `V`, with errors that are
independent and of the same distribution from row to row, and uncorrelated and of the same size from column to column.  Then, almost
surely, NOTEARS learns these equations from all arrays with enough rows. -/
theorem eventually_learned {Ω : Type} [MeasurableSpace Ω] {P : Measure Ω} {d : ℕ} {V : ℕ → ℕ → ℝ} (hV : AcyclicWeights d V)
    {v : ℝ} (hv : 0 < v) {R : ℕ → Ω → Fin d → ℝ} (hR : EqualRows P d v R) {X : ℕ → Ω → Data ℝ}
    (hX : ∀ n ω, (X n ω).rows = n ∧ (X n ω).cols = d ∧ ∀ i < n, ∀ j : Fin d, (X n ω).residual V i j = R i ω j) {ε : ℝ} (hε : 0 < ε) :
    ∃ δ > 0, ∀ᵐ ω ∂P, ∀ᶠ n in Filter.atTop, Learns (X n ω) V ε δ ∧ LearnsLasso (X n ω) V ε δ := by
  obtain ⟨δ, hδ, δ', hδ', hlearn⟩ := learns_of_equal hV hε hv
  refine ⟨δ, hδ, ?_⟩
  let ξ : ℕ → ℕ → Ω → ℝ := fun i j ω => if hj : j < d then R i ω ⟨j, hj⟩ else 0
  have hξ : ∀ i j (hj : j < d), ξ i j = fun ω => R i ω ⟨j, hj⟩ := by
    intro i j hj
    funext ω
    simp only [ξ, hj, dif_pos]
  have hm : ∀ j k : Fin d, Measurable fun r : Fin d → ℝ => r j * r k := fun j k => (measurable_pi_apply j).mul (measurable_pi_apply k)
  have hev := equalErrors_eventually (P := P) (V := V) (ξ := ξ) (X := X) (d := d) (v := v)
    (fun n => ⟨fun ω => (hX n ω).1, fun ω => (hX n ω).2.1, fun ω i hi j hj => by
      rw [hξ i j hj]; exact (hX n ω).2.2 i hi ⟨j, hj⟩⟩)
    (fun j hj k hk => by
      rw [hξ 0 j hj, hξ 0 k hk]
      exact (hR.square ⟨j, hj⟩).integrable_mul (hR.square ⟨k, hk⟩))
    (fun i i' hne j hj k hk => by
      rw [hξ i j hj, hξ i k hk, hξ i' j hj, hξ i' k hk]
      exact (hR.indep hne).comp (hm ⟨j, hj⟩ ⟨k, hk⟩) (hm ⟨j, hj⟩ ⟨k, hk⟩))
    (fun i j hj k hk => by
      rw [hξ i j hj, hξ i k hk, hξ 0 j hj, hξ 0 k hk]
      exact (hR.ident i).comp (hm ⟨j, hj⟩ ⟨k, hk⟩))
    (fun j hj k hk => by
      rw [hξ 0 j hj, hξ 0 k hk, hR.product]
      simp only [Fin.mk.injEq]) hδ'
  filter_upwards [hev] with ω hω
  filter_upwards [hω] with n hn
  exact hlearn _ (hX n ω).2.1 hn

end Verif.Recover
