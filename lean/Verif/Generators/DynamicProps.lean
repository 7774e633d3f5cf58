import Verif.Generators.DynamicSpec
import Verif.Generators.Props
import Verif.Dynotears.Props
import Verif.Notears.PropsPandas

/-!
# Random dynamic structures (C54)
-/

namespace Verif.Generators

open Verif.Notears Verif.Str
open Verif.Dynotears (lagName lagName_inj)

section
variable {K : Type} [Field K] [LinearOrder K]

theorem interLabels_length (n p : ℕ) : (interLabels n p).length = p * n + n := by
  simp [interLabels, List.length_flatMap]

theorem interLabels_lag {n p l i : ℕ} (hl : l < p) (hi : i < n) :
    (interLabels n p).getD (l * n + i) [] = lagName (natStr i) (l + 1) := by
  have hlt : l * n + i < p * n := by
    calc l * n + i < l * n + n := by omega
      _ = (l + 1) * n := by rw [Nat.succ_mul]
      _ ≤ p * n := Nat.mul_le_mul_right _ hl
  rw [interLabels, List.getD_eq_getElem?_getD, List.getElem?_append_left (by simpa [List.length_flatMap] using hlt),
    flatMap_range_get _ n p (by simp) l i hl hi]
  simp [hi]

theorem interLabels_now {n p j : ℕ} (hj : j < n) :
    (interLabels n p).getD (p * n + j) [] = lagName (natStr j) 0 := by
  rw [interLabels, List.getD_eq_getElem?_getD, List.getElem?_append_right (by simp [List.length_flatMap])]
  simp [List.length_flatMap, hj]

theorem mem_interLabels {n p : ℕ} {v : Str} :
    v ∈ interLabels n p ↔ ∃ i < n, ∃ k ≤ p, v = lagName (natStr i) k := by
  simp only [interLabels, List.mem_append, List.mem_flatMap, List.mem_map, List.mem_range]
  constructor
  · rintro (⟨k, hk, i, hi, rfl⟩ | ⟨i, hi, rfl⟩)
    · exact ⟨i, hi, k + 1, by omega, rfl⟩
    · exact ⟨i, hi, 0, by omega, rfl⟩
  · rintro ⟨i, hi, k, hk, rfl⟩
    rcases Nat.eq_zero_or_pos k with rfl | h
    · exact Or.inr ⟨i, hi, rfl⟩
    · exact Or.inl ⟨k - 1, by omega, i, hi, by rw [Nat.sub_add_cancel h]⟩

theorem interLabels_nodup (n p : ℕ) : (interLabels n p).Nodup := by
  rw [interLabels, List.nodup_append, List.nodup_flatMap]
  refine ⟨⟨fun l _ => List.nodup_range.map fun a b h => natStr_inj (lagName_inj h).1, ?_⟩,
    List.nodup_range.map fun a b h => natStr_inj (lagName_inj h).1, ?_⟩
  · refine List.nodup_range.imp ?_
    intro a b hab
    simp only [Function.onFun, List.disjoint_left, List.mem_map]
    rintro _ ⟨x, -, rfl⟩ ⟨y, -, h⟩
    exact hab (Nat.succ_injective (lagName_inj h).2.symm)
  · intro a ha b hb hab
    simp only [List.mem_flatMap, List.mem_map, List.mem_range] at ha hb
    obtain ⟨k, -, i, -, rfl⟩ := ha
    obtain ⟨j, -, rfl⟩ := hb
    exact absurd (lagName_inj hab).2 (by omega)

/-- The edges between time slices. -/
theorem generateInter_ok {n p : ℕ} {degree wMin wMax decay neg : K} {graphType : String} {r : InterDraws K}
    {g : Graph Str K} (h : generateInter n p degree graphType wMin wMax decay neg r = .ok g) :
    wMin ≤ wMax ∧ ∃ b, interFlags n degree graphType r = .ok b ∧ g.nodes = interLabels n p ∧
      (g.edges.map fun e => (e.src, e.dst)).Nodup ∧
      ∀ e, e ∈ g.edges ↔ ∃ l < p, ∃ i < n, ∃ j < n, b (l * n + i) j ≠ 0 ∧ interWeights wMin wMax decay neg r l i j ≠ 0 ∧
        e = ⟨lagName (natStr i) (l + 1), lagName (natStr j) 0, interWeights wMin wMax decay neg r l i j, "unknown"⟩ := by
  unfold generateInter at h
  split at h
  · exact absurd h (by simp)
  · rename_i hw
    split at h
    · exact absurd h (by simp)
    · rename_i b hb
      injection h with h
      have hmem : ∀ e : Edge ℕ K, e ∈ (ofMatrix (interLabels n p).length fun i j => if i < p * n ∧ p * n ≤ j then
          (if b i (j - p * n) ≠ 0 then 1 else 0) * interWeights wMin wMax decay neg r (i / n) (i % n) (j - p * n)
            else 0).edges ↔ ∃ l < p, ∃ i < n, ∃ j < n, b (l * n + i) j ≠ 0 ∧
              interWeights wMin wMax decay neg r l i j ≠ 0 ∧
            e = ⟨l * n + i, p * n + j, interWeights wMin wMax decay neg r l i j, "unknown"⟩ := by
        intro e
        rw [mem_ofMatrix, interLabels_length]
        constructor
        · rintro ⟨h1, h2, h3, h4, h5⟩
          have hc : e.src < p * n ∧ p * n ≤ e.dst := by
            by_contra hc
            rw [if_neg hc] at h3
            exact h3 rfl
          have hn : 0 < n := by
            rcases Nat.eq_zero_or_pos n with rfl | h
            · simp at hc
            · exact h
          rw [if_pos hc] at h3 h4
          have hb : b e.src (e.dst - p * n) ≠ 0 := by
            intro hz
            rw [if_neg (by simp [hz]), zero_mul] at h3
            exact h3 rfl
          rw [if_pos hb, one_mul] at h3 h4
          refine ⟨e.src / n, Nat.div_lt_of_lt_mul (by rw [Nat.mul_comm]; exact hc.1), e.src % n, Nat.mod_lt _ hn,
            e.dst - p * n, by omega, by rw [Nat.div_add_mod']; exact hb, h3, ?_⟩
          rw [← h4, ← h5, Nat.div_add_mod', Nat.add_sub_cancel' hc.2]
        · rintro ⟨l, hl, i, hi, j, hj, hb, hw, rfl⟩
          have hlt : l * n + i < p * n := by
            calc l * n + i < l * n + n := by omega
              _ = (l + 1) * n := by rw [Nat.succ_mul]
              _ ≤ p * n := Nat.mul_le_mul_right _ hl
          have hdiv : (l * n + i) / n = l := by
            rw [Nat.mul_comm, Nat.mul_add_div (by omega), Nat.div_eq_of_lt hi, Nat.add_zero]
          have hmod : (l * n + i) % n = i := by
            rw [Nat.mul_comm, Nat.mul_add_mod, Nat.mod_eq_of_lt hi]
          refine ⟨by simp only; omega, by simp only; omega, ?_, ?_, rfl⟩ <;>
            simp only [hlt, Nat.le_add_right, and_self, if_true, Nat.add_sub_cancel_left, hb, hdiv, hmod, one_mul, ne_eq,
              not_false_eq_true]
          exact hw
      refine ⟨not_lt.1 hw, b, hb, by rw [← h]; rfl, ?_, ?_⟩
      · rw [← h]
        simp only [ofFrame, List.map_map]
        have h1 := ofMatrix_pairs_nodup (interLabels n p).length (fun i j => if i < p * n ∧ p * n ≤ j then
          (if b i (j - p * n) ≠ 0 then 1 else 0) * interWeights wMin wMax decay neg r (i / n) (i % n) (j - p * n)
            else 0)
        rw [List.nodup_map_iff_inj_on h1.of_map] at h1
        refine (List.nodup_map_iff_inj_on (List.Nodup.of_map _ (ofMatrix_pairs_nodup _ _))).2 ?_
        intro x hx y hy hxy
        refine h1 x hx y hy ?_
        rw [hmem] at hx hy
        obtain ⟨l, hl, i, hi, j, hj, -, -, rfl⟩ := hx
        obtain ⟨l', hl', i', hi', j', hj', -, -, rfl⟩ := hy
        simp only [Function.comp, interLabels_lag hl hi, interLabels_lag hl' hi', interLabels_now hj,
          interLabels_now hj', Prod.mk.injEq] at hxy
        obtain ⟨e1, e2⟩ := hxy
        obtain ⟨e3, e4⟩ := lagName_inj e1
        rw [natStr_inj e3, Nat.succ_injective e4, natStr_inj (lagName_inj e2).1]
      · intro e
        rw [← h]
        simp only [ofFrame, List.mem_map, hmem]
        constructor
        · rintro ⟨_, ⟨l, hl, i, hi, j, hj, hb, hw, rfl⟩, rfl⟩
          exact ⟨l, hl, i, hi, j, hj, hb, hw, by rw [interLabels_lag hl hi, interLabels_now hj]⟩
        · rintro ⟨l, hl, i, hi, j, hj, hb, hw, rfl⟩
          exact ⟨_, ⟨l, hl, i, hi, j, hj, hb, hw, rfl⟩, by rw [interLabels_lag hl hi, interLabels_now hj]⟩

/-- The result: the labels, the edges between time slices and the renamed edges within the present slice. -/
theorem generateDynamic_ok [IsStrictOrderedRing K] [FloorRing K] {n p : ℕ} {a : DynParams K} {r : Draws K n} {r' : InterDraws K}
    (hr : r.Uniform) {g : Graph Str K} (h : generateDynamic n p a r r' = .ok g) :
    ∃ intra inter, generateStructure n a.degreeIntra a.typeIntra a.wMinIntra a.wMaxIntra r = .ok intra ∧
      generateInter n p a.degreeInter a.typeInter a.wMinInter a.wMaxInter a.decay (1 / 2) r' = .ok inter ∧
      g = ⟨interLabels n p, (inter.edges.map fun e => ⟨e.src, e.dst, e.weight, "unknown"⟩) ++
        intra.edges.map fun e => ⟨lagName (natStr e.src) 0, lagName (natStr e.dst) 0, e.weight, "unknown"⟩⟩ := by
  unfold generateDynamic at h
  split at h
  · exact absurd h (by simp)
  · rename_i intra hi
    split at h
    · exact absurd h (by simp)
    · rename_i inter ht
      injection h with h
      refine ⟨intra, inter, hi, ht, ?_⟩
      have hd := generateStructure_dag hr hi
      obtain ⟨-, b, -, hnodes, hnd, hedges⟩ := generateInter_ok ht
      have h1 : addNodes (⟨[], []⟩ : Graph Str K) inter.nodes = ⟨interLabels n p, []⟩ := by
        rw [hnodes]
        have h1 := addNodes_nodup (K := K) ⟨[], []⟩ (interLabels_nodup n p) (by simp)
        have h2 := addNodes_edges (K := K) ⟨[], []⟩ (interLabels n p)
        cases h : addNodes (⟨[], []⟩ : Graph Str K) (interLabels n p)
        rw [h] at h1 h2
        simp only [List.nil_append] at h1 h2
        rw [h1, h2]
      have h2 := addNodes_of_mem (⟨interLabels n p, []⟩ : Graph Str K)
        (ns := intra.nodes.map fun u => lagName (natStr u) 0) (by
          intro v hv
          rw [hd.nodes] at hv
          obtain ⟨i, hi, rfl⟩ := List.mem_map.1 hv
          exact mem_interLabels.2 ⟨i, List.mem_range.1 hi, 0, by omega, rfl⟩)
      have h3 := addWeightedEdges_nodup (o := "unknown") (⟨interLabels n p, []⟩ : Graph Str K)
        (es := inter.edges.map fun e => (e.src, e.dst, e.weight)) (by
          intro e he
          obtain ⟨x, hx, rfl⟩ := List.mem_map.1 he
          obtain ⟨l, hl, i, hi, j, hj, -, -, rfl⟩ := (hedges x).1 hx
          exact ⟨mem_interLabels.2 ⟨_, hi, l + 1, hl, rfl⟩, mem_interLabels.2 ⟨_, hj, 0, by omega, rfl⟩⟩) (by
          rw [List.map_map]
          exact hnd) (by simp)
      rw [h1, h2, h3, addWeightedEdges_nodup] at h
      · rw [← h]
        simp [List.map_map, Function.comp_def]
      · intro e he
        obtain ⟨x, hx, rfl⟩ := List.mem_map.1 he
        obtain ⟨h3, h4⟩ := hd.ends x hx
        exact ⟨mem_interLabels.2 ⟨_, h3, 0, by omega, rfl⟩, mem_interLabels.2 ⟨_, h4, 0, by omega, rfl⟩⟩
      · have := hd.simple
        rw [pairs] at this
        rw [List.map_map]
        have h3 := this.map (f := fun q : ℕ × ℕ => (lagName (natStr q.1) 0, lagName (natStr q.2) 0)) (by
          rintro ⟨x, y⟩ ⟨x', y'⟩ hxy
          obtain ⟨h3, h4⟩ := Prod.mk.inj hxy
          dsimp only at h3 h4
          rw [natStr_inj (lagName_inj h3).1, natStr_inj (lagName_inj h4).1])
        rw [List.map_map] at h3
        exact h3
      · intro e he x hx
        obtain ⟨y, hy, rfl⟩ := List.mem_map.1 he
        simp only [List.nil_append, List.map_map, List.mem_map, Function.comp] at hx
        obtain ⟨z, hz, rfl⟩ := hx
        obtain ⟨l, hl, i, hi, j, hj, -, -, rfl⟩ := (hedges z).1 hz
        rintro ⟨h3, -⟩
        exact absurd (lagName_inj h3).2 (by omega)

theorem interWeights_range [IsStrictOrderedRing K] {wMin wMax decay neg : K} (h : wMin ≤ wMax) {r : InterDraws K}
    (hr : r.Uniform) (l i j : ℕ) : ∃ x, wMin ≤ x ∧ x ≤ wMax ∧
      (interWeights wMin wMax decay neg r l i j = x / decay ^ l ∨
        interWeights wMin wMax decay neg r l i j = -(x / decay ^ l)) := by
  have h1 := hr.2 l i j
  refine ⟨wMin + (wMax - wMin) * r.unif l i j, ?_, ?_, ?_⟩
  · have := mul_nonneg (sub_nonneg.2 h) h1.1
    linarith
  · have := mul_le_mul_of_nonneg_left h1.2.le (sub_nonneg.2 h)
    linarith
  · unfold interWeights
    dsimp only
    split
    · right; ring
    · left; rfl

/-- **C54.** For all random outcomes: if `generate_structure_dynamic` returns, the result is a DAG on exactly the
nodes of all lags, all its edges end in the present, and the weights are within the (decayed) ranges. -/
theorem generateDynamic_dag [IsStrictOrderedRing K] [FloorRing K] {n p : ℕ} {a : DynParams K} {r : Draws K n} {r' : InterDraws K}
    (hr : r.Uniform) (hr' : r'.Uniform) {g : Graph Str K} (h : generateDynamic n p a r r' = .ok g) :
    DynamicDag n p |a.wMinIntra| |a.wMaxIntra| a.wMinInter a.wMaxInter a.decay g := by
  obtain ⟨intra, inter, hi, ht, rfl⟩ := generateDynamic_ok hr h
  have hd := generateStructure_dag hr hi
  obtain ⟨hw, b, -, hnodes, hnd, hedges⟩ := generateInter_ok ht
  have hpairs : ∀ u v, (u, v) ∈ (pairs (⟨interLabels n p, (inter.edges.map fun e => ⟨e.src, e.dst, e.weight, "unknown"⟩) ++
        intra.edges.map fun e => ⟨lagName (natStr e.src) 0, lagName (natStr e.dst) 0, e.weight, "unknown"⟩⟩ :
          Graph Str K)) ↔ (∃ e ∈ inter.edges, e.src = u ∧ e.dst = v) ∨
          ∃ e ∈ intra.edges, lagName (natStr e.src) 0 = u ∧ lagName (natStr e.dst) 0 = v := by
    intro u v
    simp [pairs]
  refine ⟨fun v => mem_interLabels, interLabels_nodup n p, ?_, ?_, ?_, ?_⟩
  · rw [interLabels_length]
    ring
  · simp only [pairs, List.map_append, List.map_map]
    rw [List.nodup_append]
    refine ⟨hnd, ?_, ?_⟩
    · have h3 := hd.simple.map (f := fun q : ℕ × ℕ => (lagName (natStr q.1) 0, lagName (natStr q.2) 0)) (by
          rintro ⟨x, y⟩ ⟨x', y'⟩ hxy
          obtain ⟨h3, h4⟩ := Prod.mk.inj hxy
          dsimp only at h3 h4
          rw [natStr_inj (lagName_inj h3).1, natStr_inj (lagName_inj h4).1])
      rw [pairs, List.map_map] at h3
      exact h3
    · intro x hx y hy hxy
      obtain ⟨e, he, rfl⟩ := List.mem_map.1 hx
      obtain ⟨e', he', rfl⟩ := List.mem_map.1 hy
      obtain ⟨l, hl, i, hi, j, hj, -, -, rfl⟩ := (hedges e).1 he
      exact absurd (lagName_inj (Prod.mk.inj hxy).1).2 (by omega)
  · intro v hv
    have hend : ∀ {u v : Str}, Verif.Graph.EdgeRel (pairs (⟨interLabels n p,
        (inter.edges.map fun e => ⟨e.src, e.dst, e.weight, "unknown"⟩) ++
        intra.edges.map fun e => ⟨lagName (natStr e.src) 0, lagName (natStr e.dst) 0, e.weight, "unknown"⟩⟩ :
          Graph Str K)) u v → ∃ j, v = lagName (natStr j) 0 := by
      intro u v huv
      rcases (hpairs u v).1 huv with ⟨e, he, -, rfl⟩ | ⟨e, he, -, rfl⟩
      · obtain ⟨l, hl, i, hi, j, hj, -, -, rfl⟩ := (hedges e).1 he
        exact ⟨j, rfl⟩
      · exact ⟨_, rfl⟩
    have hstep : ∀ {i : ℕ} {v : Str}, Verif.Graph.EdgeRel (pairs (⟨interLabels n p,
        (inter.edges.map fun e => ⟨e.src, e.dst, e.weight, "unknown"⟩) ++
        intra.edges.map fun e => ⟨lagName (natStr e.src) 0, lagName (natStr e.dst) 0, e.weight, "unknown"⟩⟩ :
          Graph Str K)) (lagName (natStr i) 0) v → ∃ j, v = lagName (natStr j) 0 ∧
            Verif.Graph.EdgeRel (pairs intra) i j := by
      intro i v huv
      rcases (hpairs _ v).1 huv with ⟨e, he, h1, rfl⟩ | ⟨e, he, h1, rfl⟩
      · obtain ⟨l, hl, i, hi, j, hj, -, -, rfl⟩ := (hedges e).1 he
        exact absurd (lagName_inj h1).2 (by omega)
      · refine ⟨e.dst, rfl, List.mem_map.2 ⟨e, he, ?_⟩⟩
        rw [natStr_inj (lagName_inj h1).1]
    have key : ∀ {u v : Str}, Relation.TransGen (Verif.Graph.EdgeRel (pairs (⟨interLabels n p,
        (inter.edges.map fun e => ⟨e.src, e.dst, e.weight, "unknown"⟩) ++
        intra.edges.map fun e => ⟨lagName (natStr e.src) 0, lagName (natStr e.dst) 0, e.weight, "unknown"⟩⟩ :
          Graph Str K))) u v → ∀ i, u = lagName (natStr i) 0 → ∃ j, v = lagName (natStr j) 0 ∧
        Relation.TransGen (Verif.Graph.EdgeRel (pairs intra)) i j := by
      intro u v huv i hu
      induction huv with
      | single h1 =>
        subst hu
        obtain ⟨j, hj, h2⟩ := hstep h1
        exact ⟨j, hj, .single h2⟩
      | tail _ h1 ih =>
        obtain ⟨j, rfl, h2⟩ := ih
        obtain ⟨k, hk, h3⟩ := hstep h1
        exact ⟨k, hk, h2.tail h3⟩
    obtain ⟨i, rfl⟩ : ∃ i, v = lagName (natStr i) 0 := by
      cases hv with
      | single h1 => exact hend h1
      | tail _ h1 => exact hend h1
    obtain ⟨j, hj, h2⟩ := key hv i rfl
    rw [← natStr_inj (lagName_inj hj).1] at h2
    exact hd.acyclic i h2
  · intro e he
    rcases List.mem_append.1 he with he | he
    · obtain ⟨x, hx, rfl⟩ := List.mem_map.1 he
      obtain ⟨l, hl, i, hi, j, hj, -, -, rfl⟩ := (hedges x).1 hx
      exact ⟨i, hi, l + 1, hl, j, hj, rfl, rfl, by simp, fun _ => interWeights_range hw hr' l i j⟩
    · obtain ⟨x, hx, rfl⟩ := List.mem_map.1 he
      obtain ⟨h3, h4⟩ := hd.ends x hx
      exact ⟨_, h3, 0, by omega, _, h4, rfl, rfl, fun _ => hd.weights x hx, by simp⟩

/-- **C54**, the present slice: it is the structure made by `generate_structure`, with its weights. -/
theorem generateDynamic_intra [IsStrictOrderedRing K] [FloorRing K] {n p : ℕ} {a : DynParams K} {r : Draws K n} {r' : InterDraws K}
    (hr : r.Uniform) {g : Graph Str K} (h : generateDynamic n p a r r' = .ok g) :
    ∃ intra, generateStructure n a.degreeIntra a.typeIntra a.wMinIntra a.wMaxIntra r = .ok intra ∧
      ∀ i j w, (∃ e ∈ g.edges, e.src = lagName (natStr i) 0 ∧ e.dst = lagName (natStr j) 0 ∧ e.weight = w) ↔
        ∃ e ∈ intra.edges, e.src = i ∧ e.dst = j ∧ e.weight = w := by
  obtain ⟨intra, inter, hi, ht, rfl⟩ := generateDynamic_ok hr h
  obtain ⟨hw, b, -, hnodes, hnd, hedges⟩ := generateInter_ok ht
  refine ⟨intra, hi, fun i j w => ?_⟩
  constructor
  · rintro ⟨e, he, h1, h2, rfl⟩
    rcases List.mem_append.1 he with he | he
    · obtain ⟨x, hx, rfl⟩ := List.mem_map.1 he
      obtain ⟨l, hl, i, hi, j, hj, -, -, rfl⟩ := (hedges x).1 hx
      exact absurd (lagName_inj h1).2 (by omega)
    · obtain ⟨x, hx, rfl⟩ := List.mem_map.1 he
      exact ⟨x, hx, natStr_inj (lagName_inj h1).1, natStr_inj (lagName_inj h2).1, rfl⟩
  · rintro ⟨e, he, rfl, rfl, rfl⟩
    exact ⟨_, List.mem_append.2 (Or.inr (List.mem_map.2 ⟨e, he, rfl⟩)), rfl, rfl, rfl⟩

/-- **C54**, edges from the past: all of them for the type "full", otherwise those whose random number is below
`degree / n`. -/
theorem generateDynamic_inter [IsStrictOrderedRing K] [FloorRing K] {n p : ℕ} {a : DynParams K} {r : Draws K n} {r' : InterDraws K}
    (hr : r.Uniform) (hr' : r'.Uniform) (h0 : 0 < a.wMinInter) (hdecay : a.decay ≠ 0) {g : Graph Str K}
    (h : generateDynamic n p a r r' = .ok g) {i j k : ℕ} (hi : i < n) (hj : j < n) (hk : 1 ≤ k) (hkp : k ≤ p) :
    (lagName (natStr i) k, lagName (natStr j) 0) ∈ pairs g ↔
      a.typeInter = "full" ∨ r'.rand ((k - 1) * n + i) j < a.degreeInter / n := by
  obtain ⟨intra, inter, hi', ht, rfl⟩ := generateDynamic_ok hr h
  obtain ⟨hw, b, hb, hnodes, hnd, hedges⟩ := generateInter_ok ht
  have hflag : b ((k - 1) * n + i) j ≠ 0 ↔ a.typeInter = "full" ∨ r'.rand ((k - 1) * n + i) j < a.degreeInter / n := by
    unfold interFlags at hb
    split at hb
    · rename_i he
      injection hb with hb
      rw [← hb, he]
      simp
    · split at hb
      · rename_i he
        injection hb with hb
        rw [← hb]
        simp [he]
      · exact absurd hb (by simp)
  rw [← hflag]
  have hne : interWeights a.wMinInter a.wMaxInter a.decay (1 / 2) r' (k - 1) i j ≠ 0 := by
    obtain ⟨x, h1, -, h2⟩ := interWeights_range (decay := a.decay) (neg := 1 / 2) hw hr' (k - 1) i j
    have h3 : x / a.decay ^ (k - 1) ≠ 0 := div_ne_zero (h0.trans_le h1).ne' (pow_ne_zero _ hdecay)
    rcases h2 with h2 | h2 <;> rw [h2]
    · exact h3
    · exact neg_ne_zero.2 h3
  constructor
  · intro he
    obtain ⟨e, he, h1⟩ := List.mem_map.1 he
    obtain ⟨h1, h2⟩ := Prod.mk.inj h1
    rcases List.mem_append.1 he with he | he
    · obtain ⟨x, hx, rfl⟩ := List.mem_map.1 he
      obtain ⟨l, hl, i', hi', j', hj', hb', -, rfl⟩ := (hedges x).1 hx
      obtain ⟨h3, h4⟩ := lagName_inj h1
      have h5 := natStr_inj h3
      have h6 := natStr_inj (lagName_inj h2).1
      subst h5 h6
      rw [← h4]
      exact hb'
    · obtain ⟨x, hx, rfl⟩ := List.mem_map.1 he
      exact absurd (lagName_inj h1).2 (by omega)
  · intro hb'
    refine List.mem_map.2 ⟨_, List.mem_append.2 (Or.inl (List.mem_map.2 ⟨_, (hedges _).2
      ⟨k - 1, by omega, i, hi, j, hj, hb', hne, rfl⟩, rfl⟩)), ?_⟩
    simp only [Nat.sub_add_cancel hk]

/-- When `generate_structure_dynamic` returns a graph. -/
theorem generateDynamic_total [IsStrictOrderedRing K] [FloorRing K] (n p : ℕ) (a : DynParams K) (r : Draws K n) (r' : InterDraws K) :
    ((∃ g, generateDynamic n p a r r' = .ok g) ↔ 2 ≤ n ∧ |a.wMinIntra| ≤ |a.wMaxIntra| ∧
      (a.typeIntra = "erdos-renyi" ∨ a.typeIntra = "full" ∨ a.typeIntra = "barabasi-albert" ∧ -1 ≤ a.degreeIntra) ∧
      a.wMinInter ≤ a.wMaxInter ∧ (a.typeInter = "erdos-renyi" ∨ a.typeInter = "full")) ∧
    ∀ e, generateDynamic n p a r r' = .error e → e = .valueError := by
  have h1 := generateStructure_total n a.degreeIntra a.wMinIntra a.wMaxIntra a.typeIntra r
  have h2 : ((∃ g, generateInter n p a.degreeInter a.typeInter a.wMinInter a.wMaxInter a.decay (1 / 2) r' = .ok g) ↔
      a.wMinInter ≤ a.wMaxInter ∧ (a.typeInter = "erdos-renyi" ∨ a.typeInter = "full")) ∧
      ∀ e, generateInter n p a.degreeInter a.typeInter a.wMinInter a.wMaxInter a.decay (1 / 2) r' = .error e →
        e = .valueError := by
    unfold generateInter interFlags
    by_cases hw : a.wMaxInter < a.wMinInter
    · simp [hw, eq_comm]
    · by_cases ht : a.typeInter = "erdos-renyi"
      · simp [ht, hw, not_lt.1 hw]
      · by_cases ht' : a.typeInter = "full"
        · simp [ht', hw, not_lt.1 hw]
        · simp [hw, ht, ht', eq_comm]
  unfold generateDynamic
  cases hi : generateStructure n a.degreeIntra a.typeIntra a.wMinIntra a.wMaxIntra r with
  | error e =>
    have := h1.2 e hi
    rw [hi] at h1
    simp only [reduceCtorEq, exists_false, false_iff, Except.error.injEq, forall_eq'] at h1 ⊢
    exact ⟨fun hc => h1.1 ⟨hc.1, hc.2.1, hc.2.2.1⟩, this⟩
  | ok intra =>
    rw [hi] at h1
    have h1 := h1.1.1 ⟨_, rfl⟩
    cases ht : generateInter n p a.degreeInter a.typeInter a.wMinInter a.wMaxInter a.decay (1 / 2) r' with
    | error e =>
      have := h2.2 e ht
      rw [ht] at h2
      simp only [reduceCtorEq, exists_false, false_iff, Except.error.injEq, forall_eq'] at h2 ⊢
      exact ⟨fun hc => h2.1 hc.2.2.2, this⟩
    | ok inter =>
      rw [ht] at h2
      have h2 := h2.1.1 ⟨_, rfl⟩
      exact ⟨⟨fun _ => ⟨h1.1, h1.2.1, h1.2.2, h2.1, h2.2⟩, fun _ => ⟨_, rfl⟩⟩, by simp⟩

end

end Verif.Generators
