import Verif.Generators.Law.StructCore
import Mathlib.MeasureTheory.Function.Floor

/-!
# The law of Barabási-Albert structures (C124)
-/

namespace Verif.Generators

open MeasureTheory ProbabilityTheory Verif.Notears
open scoped ENNReal

/-- `m` times every node but the first attaches to an earlier node: `d i k` is the node that `i` attaches to the `k`-th time. -/
def Attaches {n m : ℕ} (d : Fin n → Fin m → Fin n) : Prop :=
  ∀ (i : Fin n) (k : Fin m), ((i : ℕ) = 0 → (d i k : ℕ) = 0) ∧ ((i : ℕ) ≠ 0 → d i k < i)

/-- The edges of these attachments, the nodes being renamed by `σ`. -/
def attachEdges {n m : ℕ} (d : Fin n → Fin m → Fin n) (σ : Equiv.Perm (Fin n)) : Finset (Fin n × Fin n) :=
  ((Finset.univ : Finset (Fin n × Fin m)).filter fun c => (c.1 : ℕ) ≠ 0).image fun c => (σ c.1, σ (d c.1 c.2))

/-- The number of times that earlier nodes than `i` have attached to the one that `i` attaches to the `k`-th time. -/
def attached {n m : ℕ} (d : Fin n → Fin m → Fin n) (i : Fin n) (k : Fin m) : ℕ :=
  ((Finset.univ : Finset (Fin n × Fin m)).filter fun c => (c.1 : ℕ) ≠ 0 ∧ c.1 < i ∧ d c.1 c.2 = d i k).card

/-- Preferential attachment: the nodes attach independently, to an earlier node with probability proportional to one plus the number of
times that earlier nodes have attached to it. -/
noncomputable def attachLaw {n m : ℕ} (d : Fin n → Fin m → Fin n) : ℝ≥0∞ :=
  ∏ c ∈ (Finset.univ : Finset (Fin n × Fin m)).filter (fun c => (c.1 : ℕ) ≠ 0), ((1 + attached d c.1 c.2 : ℕ) : ℝ≥0∞) / bagSize m c.1

/-- The bag in turn `t + 1`. -/
def bagAt (m : ℕ) (pick : ℕ → ℕ → ℕ) : ℕ → List ℕ
  | 0 => [0]
  | t + 1 => bagAt m pick t ++ [t + 1] ++ choice (bagAt m pick t) m (pick (t + 1))

theorem barabasi_eq {K : Type} [Field K] [LinearOrder K] [IsStrictOrderedRing K] (m : ℕ) (pick : ℕ → ℕ → ℕ) (k t : ℕ) (flags : ℕ → ℕ → K)
    (a b : ℕ) : barabasi m pick k (t + 1) flags (bagAt m pick t) a b =
      if t + 1 ≤ a ∧ a < t + 1 + k ∧ b ∈ choice (bagAt m pick (a - 1)) m (pick a) then 1 else flags a b := by
  induction k generalizing t flags with
  | zero =>
    rw [if_neg (by omega)]
    rfl
  | succ k ih =>
    change barabasi m pick k (t + 1 + 1) (mark flags (t + 1) (choice (bagAt m pick t) m (pick (t + 1)))) (bagAt m pick (t + 1)) a b = _
    rw [ih, mark_apply]
    by_cases ha : a = t + 1
    · subst ha
      rw [if_neg (by omega)]
      congr 1
      simp
    · by_cases h : t + 1 + 1 ≤ a ∧ a < t + 1 + 1 + k ∧ b ∈ choice (bagAt m pick (a - 1)) m (pick a)
      · rw [if_pos h, if_pos ⟨by omega, by omega, h.2.2⟩]
      · rw [if_neg h, if_neg (by tauto), if_neg]
        rintro ⟨h1, h2, h3⟩
        exact h ⟨by omega, by omega, h3⟩

/-- The bag in turn `t + 1`, in terms of the attachments. -/
def bagOf {n m : ℕ} (d : Fin n → Fin m → Fin n) : ℕ → List ℕ
  | 0 => [0]
  | t + 1 => bagOf d t ++ [t + 1] ++ List.ofFn fun k => if h : t + 1 < n then (d ⟨t + 1, h⟩ k : ℕ) else 0

theorem length_bagOf {n m : ℕ} (d : Fin n → Fin m → Fin n) (t : ℕ) : (bagOf d t).length = bagSize m (t + 1) := by
  induction t with
  | zero => simp [bagOf, bagSize]
  | succ t ih =>
    simp only [bagOf, List.length_append, ih, List.length_ofFn, List.length_cons, List.length_nil]
    unfold bagSize
    simp only [Nat.add_sub_cancel]
    ring

theorem bagOf_le {n m : ℕ} {d : Fin n → Fin m → Fin n} (hd : Attaches d) (t : ℕ) : ∀ x ∈ bagOf d t, x ≤ t := by
  induction t with
  | zero => simp [bagOf]
  | succ t ih =>
    intro x hx
    simp only [bagOf, List.mem_append, List.mem_singleton, List.mem_ofFn] at hx
    rcases hx with (hx | rfl) | ⟨k, rfl⟩
    · exact (ih x hx).trans (by omega)
    · exact le_rfl
    · split
      · next h => exact ((hd ⟨t + 1, h⟩ k).2 (by simp)).le
      · omega

/-- How often a node is in the bag. -/
theorem count_bagOf {n m : ℕ} {d : Fin n → Fin m → Fin n} (hd : Attaches d) (t : ℕ) (ht : t < n) (x : Fin n) (hx : (x : ℕ) ≤ t) :
    (bagOf d t).count (x : ℕ) = 1 + ((Finset.univ : Finset (Fin n × Fin m)).filter fun c => (c.1 : ℕ) ≠ 0 ∧ (c.1 : ℕ) ≤ t ∧ d c.1 c.2 = x).card := by
  classical
  have hrow : ∀ s (hs : s < n), (List.ofFn fun k => (d ⟨s, hs⟩ k : ℕ)).count (x : ℕ) =
      ((Finset.univ : Finset (Fin m)).filter fun k => d ⟨s, hs⟩ k = x).card := by
    intro s hs
    rw [List.ofFn_eq_map, List.count_eq_countP, List.countP_map, List.countP_eq_length_filter,
      ← List.toFinset_card_of_nodup ((List.nodup_finRange m).filter _)]
    congr 1
    ext k
    simp only [List.mem_toFinset, List.mem_filter, List.mem_finRange, true_and, Function.comp, beq_iff_eq, Finset.mem_filter,
      Finset.mem_univ]
    exact ⟨fun h => Fin.ext h, fun h => congrArg Fin.val h⟩
  have hsplit : ∀ s (hs : s + 1 < n),
      ((Finset.univ : Finset (Fin n × Fin m)).filter fun c => (c.1 : ℕ) ≠ 0 ∧ (c.1 : ℕ) ≤ s + 1 ∧ d c.1 c.2 = x).card =
      ((Finset.univ : Finset (Fin n × Fin m)).filter fun c => (c.1 : ℕ) ≠ 0 ∧ (c.1 : ℕ) ≤ s ∧ d c.1 c.2 = x).card +
        ((Finset.univ : Finset (Fin m)).filter fun k => d ⟨s + 1, hs⟩ k = x).card := by
    intro s hs
    rw [← Finset.card_image_of_injective (f := fun k : Fin m => ((⟨s + 1, hs⟩ : Fin n), k)) ((Finset.univ : Finset (Fin m)).filter _)
      (fun a b h => (Prod.mk.inj h).2), ← Finset.card_union_of_disjoint]
    · congr 1
      ext ⟨i, k⟩
      simp only [Finset.mem_filter, Finset.mem_univ, true_and, Finset.mem_union, Finset.mem_image, Prod.mk.injEq]
      constructor
      · rintro ⟨h1, h2, h3⟩
        by_cases h4 : (i : ℕ) ≤ s
        · exact Or.inl ⟨h1, h4, h3⟩
        · have h5 : i = ⟨s + 1, hs⟩ := Fin.ext (by change (i : ℕ) = s + 1; omega)
          subst h5
          exact Or.inr ⟨k, h3, rfl, rfl⟩
      · rintro (⟨h1, h2, h3⟩ | ⟨k', h1, rfl, rfl⟩)
        · exact ⟨h1, by omega, h3⟩
        · exact ⟨by simp, by simp, h1⟩
    · rw [Finset.disjoint_left]
      rintro ⟨i, k⟩ h1 h2
      simp only [Finset.mem_filter, Finset.mem_univ, true_and, Finset.mem_image, Prod.mk.injEq] at h1 h2
      obtain ⟨k', -, rfl, -⟩ := h2
      simp at h1
  -- nodes that are not yet there have not been attached to
  have hnone : ((Finset.univ : Finset (Fin n × Fin m)).filter fun c => (c.1 : ℕ) ≠ 0 ∧ (c.1 : ℕ) ≤ (x : ℕ) ∧ d c.1 c.2 = x) = ∅ := by
    ext ⟨i, k⟩
    simp only [Finset.mem_filter, Finset.mem_univ, true_and, Finset.notMem_empty, iff_false]
    rintro ⟨h1, h2, h3⟩
    have := (hd i k).2 h1
    rw [h3] at this
    exact absurd h2 (not_le.2 this)
  have hnotin : ∀ s < (x : ℕ), (bagOf d s).count (x : ℕ) = 0 := by
    intro s hs
    rw [List.count_eq_zero]
    intro h
    exact absurd (bagOf_le hd s _ h) (by omega)
  induction t with
  | zero =>
    have h0 : (x : ℕ) = 0 := by omega
    have : ((Finset.univ : Finset (Fin n × Fin m)).filter fun c => (c.1 : ℕ) ≠ 0 ∧ (c.1 : ℕ) ≤ 0 ∧ d c.1 c.2 = x) = ∅ := by
      rw [h0] at hnone
      exact hnone
    rw [this, h0]
    simp [bagOf]
  | succ t ih =>
    have hb : bagOf d (t + 1) = bagOf d t ++ [t + 1] ++ List.ofFn fun k => (d ⟨t + 1, ht⟩ k : ℕ) := by
      simp only [bagOf, ht, dite_true]
    rw [hb, List.count_append, List.count_append, hrow, hsplit t ht]
    by_cases hxt : (x : ℕ) = t + 1
    · have h1 : ((Finset.univ : Finset (Fin n × Fin m)).filter fun c => (c.1 : ℕ) ≠ 0 ∧ (c.1 : ℕ) ≤ t ∧ d c.1 c.2 = x) = ∅ := by
        rw [← Finset.subset_empty, ← hnone]
        intro c hc
        simp only [Finset.mem_filter, Finset.mem_univ, true_and] at hc ⊢
        exact ⟨hc.1, by omega, hc.2.2⟩
      rw [hnotin t (by omega), h1, hxt]
      simp
    · rw [ih (by omega) (by omega)]
      have : [t + 1].count (x : ℕ) = 0 := by
        rw [List.count_eq_zero]
        simp [hxt]
      rw [this]
      ring

variable {n m : ℕ} {Ω : Type} [MeasurableSpace Ω] {P : Measure Ω} [IsProbabilityMeasure P] {D : Ω → Draws ℝ n}

/-- The random numbers lead to this attachment. -/
def leadsTo (d : Fin n → Fin m → Fin n) (c : Fin n × Fin m) : Set (StructIx n → ℝ) :=
  {x | (bagOf d (c.1 - 1)).getD (⌊x (.pick c.1 c.2)⌋₊ % (bagOf d (c.1 - 1)).length) 0 = d c.1 c.2}

theorem measurableSet_leadsTo (d : Fin n → Fin m → Fin n) (c : Fin n × Fin m) : MeasurableSet (leadsTo d c) := by
  have h : Measurable fun x : StructIx n → ℝ => ⌊x (.pick c.1 c.2)⌋₊ := Nat.measurable_floor.comp (measurable_pi_apply _)
  have e : leadsTo d c = (fun x : StructIx n → ℝ => ⌊x (.pick c.1 c.2)⌋₊) ⁻¹'
      {y | (bagOf d (c.1 - 1)).getD (y % (bagOf d (c.1 - 1)).length) 0 = d c.1 c.2} := rfl
  rw [e]
  exact h (Set.to_countable _).measurableSet

/-- The pairs of a node other than the first and the number of an attachment. -/
def turns (n m : ℕ) : Finset (Fin n × Fin m) := Finset.univ.filter fun c => (c.1 : ℕ) ≠ 0

/-- The flags in terms of the random numbers. -/
def baFlags (m : ℕ) (x : StructIx n → ℝ) (a b : Fin n) : Prop :=
  ∃ d : Fin n → Fin m → Fin n, Attaches d ∧ (∀ c ∈ turns n m, x ∈ leadsTo d c) ∧ (a : ℕ) ≠ 0 ∧ ∃ k, d a k = b

/-- The attachments that the numbers lead to. -/
theorem exists_attach (hn : 0 < n) (pick : ℕ → ℕ → ℕ) (m : ℕ) : ∃ d : Fin n → Fin m → Fin n, Attaches d ∧
    (∀ t, t < n → bagOf d t = bagAt m pick t) ∧
    ∀ t (ht : t + 1 < n) (k : Fin m), (d ⟨t + 1, ht⟩ k : ℕ) = (bagAt m pick t).getD (pick (t + 1) k % (bagAt m pick t).length) 0 := by
  have hne : ∀ t, bagAt m pick t ≠ [] := by
    intro t
    cases t <;> simp [bagAt]
  have hle : ∀ t, ∀ x ∈ bagAt m pick t, x ≤ t := by
    intro t
    induction t with
    | zero => simp [bagAt]
    | succ t ih =>
      intro x hx
      simp only [bagAt, List.mem_append, List.mem_singleton] at hx
      rcases hx with (hx | rfl) | hx
      · exact (ih x hx).trans (by omega)
      · exact le_rfl
      · exact (ih x (mem_choice (hne t) hx)).trans (by omega)
  have hget : ∀ t y, (bagAt m pick t).getD (y % (bagAt m pick t).length) 0 ≤ t := by
    intro t y
    have hl : y % (bagAt m pick t).length < (bagAt m pick t).length := Nat.mod_lt _ (List.length_pos_of_ne_nil (hne t))
    rw [List.getD_eq_getElem _ _ hl]
    exact hle t _ (List.getElem_mem _)
  let d : Fin n → Fin m → Fin n := fun i k =>
    if h : (i : ℕ) = 0 then ⟨0, hn⟩
    else ⟨(bagAt m pick (i - 1)).getD (pick i k % (bagAt m pick (i - 1)).length) 0, by have := hget (i - 1) (pick i k); omega⟩
  have hd : ∀ t (ht : t + 1 < n) (k : Fin m), (d ⟨t + 1, ht⟩ k : ℕ) = (bagAt m pick t).getD (pick (t + 1) k % (bagAt m pick t).length) 0 := by
    intro t ht k
    simp [d]
  refine ⟨d, ?_, ?_, hd⟩
  · intro i k
    refine ⟨fun h => by simp [d, h], fun h => ?_⟩
    rw [Fin.lt_def]
    simp only [d, h, dite_false]
    have := hget (i - 1) (pick i k)
    omega
  · intro t
    induction t with
    | zero => exact fun _ => rfl
    | succ t ih =>
      intro ht
      simp only [bagOf, bagAt, ih (by omega), ht, dite_true]
      congr 1
      unfold choice
      rw [List.ofFn_eq_map, ← List.map_coe_finRange_eq_range, List.map_map]
      apply List.map_congr_left
      intro k _
      exact hd t ht k

/-- The attachments are determined by the numbers. -/
theorem attach_unique {d d' : Fin n → Fin m → Fin n} (hd : Attaches d) (hd' : Attaches d') {x : StructIx n → ℝ}
    (h : ∀ c ∈ turns n m, x ∈ leadsTo d c) (h' : ∀ c ∈ turns n m, x ∈ leadsTo d' c) : d = d' := by
  have hbag : ∀ t, t < n → bagOf d t = bagOf d' t := by
    intro t
    induction t with
    | zero => exact fun _ => rfl
    | succ t ih =>
      intro ht
      simp only [bagOf, ih (by omega), ht, dite_true]
      congr 1
      rw [List.ofFn_inj]
      funext k
      have h1 := h (⟨t + 1, ht⟩, k) (by simp [turns])
      have h2 := h' (⟨t + 1, ht⟩, k) (by simp [turns])
      simp only [leadsTo, Set.mem_ofPred_eq, Nat.add_sub_cancel] at h1 h2
      rw [← h1, ← h2, ih (by omega)]
  funext i k
  apply Fin.ext
  by_cases hi : (i : ℕ) = 0
  · rw [(hd i k).1 hi, (hd' i k).1 hi]
  · have h1 := h (i, k) (by simp [turns, hi])
    have h2 := h' (i, k) (by simp [turns, hi])
    simp only [leadsTo, Set.mem_ofPred_eq] at h1 h2
    rw [← h1, ← h2, hbag _ (by omega)]

/-- The flags of a Barabási-Albert graph. -/
theorem edgeFlags_barabasi (hn : 0 < n) {degree : ℝ} (hm : pyRound (degree / 2) = m) (r : Draws ℝ n) :
    ∃ f, edgeFlags degree "barabasi-albert" r = .ok f ∧ ∀ a b, f a b ≠ 0 ↔ baFlags m r.value a b := by
  refine ⟨fun i j => barabasi m r.pick (n - 1) 1 (fun _ _ => 0) [0] i j, ?_, fun a b => ?_⟩
  · unfold edgeFlags
    rw [if_neg (by decide), if_pos rfl]
    dsimp only
    rw [if_neg (by omega), hm, Int.toNat_natCast]
  have hb := barabasi_eq (K := ℝ) m r.pick (n - 1) 0 (fun _ _ => 0) a b
  simp only [Nat.zero_add, bagAt] at hb
  dsimp only
  rw [hb]
  obtain ⟨d, hd, hbag, hdp⟩ := exists_attach hn r.pick m
  have hlead : ∀ c ∈ turns n m, r.value ∈ leadsTo d c := by
    rintro ⟨i, k⟩ hc
    simp only [turns, Finset.mem_filter, Finset.mem_univ, true_and] at hc
    obtain ⟨t, ht, rfl⟩ : ∃ t, ∃ h : t + 1 < n, i = ⟨t + 1, h⟩ :=
      ⟨i - 1, by omega, Fin.ext (by change (i : ℕ) = i - 1 + 1; omega)⟩
    simp only [leadsTo, Set.mem_ofPred_eq, Nat.add_sub_cancel, Draws.value, Nat.floor_natCast]
    rw [hbag t (by omega), hdp t (by omega) k]
  have hFlag : baFlags m r.value a b ↔ (a : ℕ) ≠ 0 ∧ ∃ k, d a k = b := by
    constructor
    · rintro ⟨d', hd', hl', h1, h2⟩
      rw [attach_unique hd hd' hlead hl']
      exact ⟨h1, h2⟩
    · exact fun h => ⟨d, hd, hlead, h⟩
  rw [hFlag]
  have hmem : (a : ℕ) ≠ 0 → ((b : ℕ) ∈ choice (bagAt m r.pick (a - 1)) m (r.pick a) ↔ ∃ k, d a k = b) := by
    intro ha
    obtain ⟨t, ht, rfl⟩ : ∃ t, ∃ h : t + 1 < n, a = ⟨t + 1, h⟩ :=
      ⟨a - 1, by omega, Fin.ext (by change (a : ℕ) = a - 1 + 1; omega)⟩
    simp only [choice, List.mem_map, List.mem_range, Nat.add_sub_cancel]
    constructor
    · rintro ⟨k, hk, h⟩
      exact ⟨⟨k, hk⟩, Fin.ext (by rw [hdp t (by omega) ⟨k, hk⟩]; exact h)⟩
    · rintro ⟨k, h⟩
      exact ⟨k, k.2, by rw [← hdp t (by omega) k, h]⟩
  by_cases ha : (a : ℕ) = 0
  · rw [if_neg (by omega)]
    simp [ha]
  · rw [← hmem ha]
    by_cases hin : (b : ℕ) ∈ choice (bagAt m r.pick (a - 1)) m (r.pick a)
    · rw [if_pos ⟨by omega, by omega, hin⟩]
      simp [ha, hin]
    · rw [if_neg (fun h => hin h.2.2)]
      simp [hin]

/-- What the attachments have to do with the bags. -/
theorem count_attached {d : Fin n → Fin m → Fin n} (hd : Attaches d) {i : Fin n} (hi : (i : ℕ) ≠ 0) (k : Fin m) :
    (bagOf d (i - 1)).count (d i k : ℕ) = 1 + attached d i k := by
  have h := (hd i k).2 hi
  rw [Fin.lt_def] at h
  rw [count_bagOf hd (i - 1) (by omega) (d i k) (by omega)]
  unfold attached
  congr 2
  ext c
  simp only [Finset.mem_filter, Finset.mem_univ, true_and, Fin.lt_def]
  have : (c.1 : ℕ) ≤ (i : ℕ) - 1 ↔ (c.1 : ℕ) < i := by omega
  rw [this]

/-- Elements of a list that are equal to a given one, by position. -/
theorem count_eq_card (l : List ℕ) (x : ℕ) : l.count x = ((Finset.range l.length).filter fun y => l.getD y 0 = x).card := by
  induction l using List.reverseRecOn with
  | nil => simp
  | append_singleton l a ih =>
    rw [List.count_append, ih, List.length_append, List.length_singleton, Finset.range_add_one, Finset.filter_insert]
    have h1 : ((Finset.range l.length).filter fun y => (l ++ [a]).getD y 0 = x) = (Finset.range l.length).filter fun y => l.getD y 0 = x := by
      apply Finset.filter_congr
      intro y hy
      rw [List.getD_append _ _ _ _ (Finset.mem_range.1 hy)]
    have h2 : (l ++ [a]).getD l.length 0 = a := by simp
    rw [h1, h2]
    by_cases h : a = x
    · rw [if_pos h, Finset.card_insert_of_notMem (by simp), h]
      simp
    · rw [if_neg h]
      simp [h]

/-- The probability of one attachment. -/
theorem prob_leadsTo (hD : RandomStructure m P D) {d : Fin n → Fin m → Fin n} (hd : Attaches d) {i : Fin n} (hi : (i : ℕ) ≠ 0) (k : Fin m) :
    P {ω | (fun j => (D ω).value j) ∈ leadsTo d (i, k)} = ((1 + attached d i k : ℕ) : ℝ≥0∞) / bagSize m i := by
  classical
  have hlen : (bagOf d (i - 1)).length = bagSize m i := by
    rw [length_bagOf, show (i : ℕ) - 1 + 1 = i by omega]
  have hpos : 0 < bagSize m i := by unfold bagSize; omega
  have hms : ∀ x : ℕ, MeasurableSet {ω | (D ω).pick i k = x} := by
    intro x
    have e : {ω | (D ω).pick i k = x} = {ω | (D ω).value (.pick i k) = x} := by
      ext ω
      simp [Draws.value]
    rw [e]
    exact measurableSet_eq_fun (hD.measurable _) measurable_const
  have hsum : ∀ T : Finset ℕ, T ⊆ Finset.range (bagSize m i) → P {ω | (D ω).pick i k ∈ T} = T.card * (bagSize m i : ℝ≥0∞)⁻¹ := by
    intro T hT
    have e : {ω | (D ω).pick i k ∈ T} = ⋃ x ∈ T, {ω | (D ω).pick i k = x} := by
      ext ω
      simp
    rw [e, measure_biUnion_finset]
    · rw [Finset.sum_congr rfl fun x hx => hD.pick i k x (Finset.mem_range.1 (hT hx)), Finset.sum_const, nsmul_eq_mul]
    · intro x _ y _ hne
      rw [Function.onFun, Set.disjoint_left]
      exact fun ω h1 h2 => hne (h1.symm.trans h2)
    · exact fun x _ => hms x
  have hall : ∀ᵐ ω ∂P, (D ω).pick i k ∈ Finset.range (bagSize m i) := by
    change P {ω | (D ω).pick i k ∈ Finset.range (bagSize m i)}ᶜ = 0
    rw [prob_compl_eq_zero_iff]
    · rw [hsum _ le_rfl, Finset.card_range]
      exact ENNReal.mul_inv_cancel (by exact_mod_cast hpos.ne') (ENNReal.natCast_ne_top _)
    · have e : {ω | (D ω).pick i k ∈ Finset.range (bagSize m i)} = ⋃ x ∈ Finset.range (bagSize m i), {ω | (D ω).pick i k = x} := by
        ext ω
        simp
      rw [e]
      exact Finset.measurableSet_biUnion _ fun x _ => hms x
  rw [← count_attached hd hi k, count_eq_card, hlen, ENNReal.div_eq_inv_mul, mul_comm, ← hsum _ (Finset.filter_subset _ _)]
  apply measure_congr
  filter_upwards [hall] with ω hω
  apply propext
  change (bagOf d (i - 1)).getD (⌊((D ω).pick i k : ℝ)⌋₊ % (bagOf d (i - 1)).length) 0 = d i k ↔ (D ω).pick i k ∈ _
  rw [Nat.floor_natCast, hlen, Nat.mod_eq_of_lt (Finset.mem_range.1 hω), Finset.mem_filter]
  exact ⟨fun h => ⟨hω, h⟩, fun h => h.2⟩

/-- The probability of a history of attachments. -/
theorem prob_attach (hD : RandomStructure m P D) {d : Fin n → Fin m → Fin n} (hd : Attaches d) :
    P {ω | ∀ c ∈ turns n m, (fun j => (D ω).value j) ∈ leadsTo d c} = attachLaw d := by
  rw [prob_blocks hD.measurable hD.indep (turns n m) (fun c => {.pick c.1 c.2}) ?_ (leadsTo d) (fun c _ => measurableSet_leadsTo d c) ?_]
  · apply Finset.prod_congr rfl
    intro c hc
    exact prob_leadsTo hD hd (Finset.mem_filter.1 hc).2 c.2
  · intro c _ c' _ hne
    rw [Finset.disjoint_singleton]
    intro h
    injection h with h1 h2
    exact hne (Prod.ext (Fin.ext h1) (Fin.ext h2))
  · intro c _ x y hxy hx
    have := hxy (.pick c.1 c.2) (by simp)
    unfold leadsTo at hx ⊢
    rw [Set.mem_ofPred_eq] at hx ⊢
    rw [← this]
    exact hx

open Classical in
/-- **C124**, Barabási-Albert graphs: with `m` the rounded half of the degree, every node but the first attaches `m` times to earlier ones
by preferential attachment; then the nodes are renamed, every renaming having the same probability; the weights are independent and
uniform. -/
theorem barabasi_law (hD : RandomStructure m P D) {degree wMin wMax : ℝ} (hn : 2 ≤ n) (hm : pyRound (degree / 2) = m)
    (h0 : wMin ≠ 0) (hw : |wMin| ≤ |wMax|) (G : Finset (Fin n × Fin n)) (B : Fin n × Fin n → Set ℝ) (hB : ∀ c ∈ G, MeasurableSet (B c)) :
    P {ω | ∃ g, generateStructure n degree "barabasi-albert" wMin wMax (D ω) = .ok g ∧ Shows g G B} =
      (∑ σ : Equiv.Perm (Fin n), (n.factorial : ℝ≥0∞)⁻¹ *
        ∑ d ∈ (Finset.univ : Finset (Fin n → Fin m → Fin n)).filter (fun d => Attaches d ∧ attachEdges d σ = G), attachLaw d) *
        ∏ c ∈ G, weightLaw |wMin| |wMax| (B c) := by
  rw [law_general hD hn h0 hw (F := baFlags m) (fun ω => edgeFlags_barabasi (by omega) hm (D ω))
    ((turns n m).image fun c => .pick c.1 c.2) (by simp) ?_ ?_ G B hB]
  · congr 1
    apply Finset.sum_congr rfl
    intro σ _
    congr 1
    have hset : {ω | ∀ a b, baFlags m (D ω).value a b ↔ (σ a, σ b) ∈ G} =
        ⋃ d ∈ (Finset.univ : Finset (Fin n → Fin m → Fin n)).filter (fun d => Attaches d ∧ attachEdges d σ = G),
          {ω | ∀ c ∈ turns n m, (fun j => (D ω).value j) ∈ leadsTo d c} := by
      ext ω
      obtain ⟨d, hd, hbag, hdp⟩ := exists_attach (n := n) (by omega) (D ω).pick m
      have hlead : ∀ c ∈ turns n m, (D ω).value ∈ leadsTo d c := by
        rintro ⟨i, k⟩ hc
        simp only [turns, Finset.mem_filter, Finset.mem_univ, true_and] at hc
        obtain ⟨t, ht, rfl⟩ : ∃ t, ∃ h : t + 1 < n, i = ⟨t + 1, h⟩ :=
          ⟨i - 1, by omega, Fin.ext (by change (i : ℕ) = i - 1 + 1; omega)⟩
        simp only [leadsTo, Set.mem_ofPred_eq, Nat.add_sub_cancel, Draws.value, Nat.floor_natCast]
        rw [hbag t (by omega), hdp t (by omega) k]
      have hFlag : ∀ a b, baFlags m (D ω).value a b ↔ (σ a, σ b) ∈ attachEdges d σ := by
        intro a b
        have h1 : baFlags m (D ω).value a b ↔ (a : ℕ) ≠ 0 ∧ ∃ k, d a k = b := by
          constructor
          · rintro ⟨d', hd', hl', h1, h2⟩
            rw [attach_unique hd hd' hlead hl']
            exact ⟨h1, h2⟩
          · exact fun h => ⟨d, hd, hlead, h⟩
        rw [h1]
        simp only [attachEdges, Finset.mem_image, Finset.mem_filter, Finset.mem_univ, true_and, Prod.mk.injEq, EmbeddingLike.apply_eq_iff_eq]
        constructor
        · rintro ⟨ha, k, hk⟩
          exact ⟨(a, k), ha, rfl, hk⟩
        · rintro ⟨⟨a', k⟩, ha, rfl, hk⟩
          exact ⟨ha, k, hk⟩
      simp only [Set.mem_ofPred_eq, Set.mem_iUnion, Finset.mem_filter, Finset.mem_univ, true_and, exists_prop]
      constructor
      · intro h
        refine ⟨d, ⟨hd, ?_⟩, hlead⟩
        ext ⟨u, v⟩
        have := (hFlag (σ.symm u) (σ.symm v)).symm.trans (h (σ.symm u) (σ.symm v))
        simpa using this
      · rintro ⟨d', ⟨hd', hG⟩, hl'⟩
        have := attach_unique hd hd' hlead hl'
        subst this
        intro a b
        rw [hFlag, hG]
    rw [hset, measure_biUnion_finset]
    · apply Finset.sum_congr rfl
      intro d hd
      exact prob_attach hD (Finset.mem_filter.1 hd).2.1
    · intro d hd d' hd' hne
      rw [Function.onFun, Set.disjoint_left]
      intro ω h1 h2
      exact hne (attach_unique (Finset.mem_filter.1 hd).2.1 (Finset.mem_filter.1 hd').2.1 h1 h2)
    · intro d _
      have e : {ω | ∀ c ∈ turns n m, (fun j => (D ω).value j) ∈ leadsTo d c} = ⋂ c ∈ turns n m, (fun ω => (D ω).value) ⁻¹' leadsTo d c := by
        ext ω
        simp
      rw [e]
      exact Finset.measurableSet_biInter _ fun c _ => (measurable_pi_lambda _ hD.measurable) (measurableSet_leadsTo d c)
  · rintro x y hxy a b ⟨d, hd, hl, h⟩
    refine ⟨d, hd, fun c hc => ?_, h⟩
    have h1 := hl c hc
    have h2 := hxy (.pick c.1 c.2) (Finset.mem_image.2 ⟨c, hc, rfl⟩)
    unfold leadsTo at h1 ⊢
    rw [Set.mem_ofPred_eq] at h1 ⊢
    rw [← h2]
    exact h1
  · intro a b
    have e : {x : StructIx n → ℝ | baFlags m x a b} =
        ⋃ d ∈ (Finset.univ : Finset (Fin n → Fin m → Fin n)).filter (fun d => Attaches d ∧ (a : ℕ) ≠ 0 ∧ ∃ k, d a k = b),
          ⋂ c ∈ turns n m, leadsTo d c := by
      ext x
      simp only [baFlags, Set.mem_ofPred_eq, Set.mem_iUnion, Finset.mem_filter, Finset.mem_univ, true_and, exists_prop, Set.mem_iInter]
      constructor
      · rintro ⟨d, h1, h2, h3⟩; exact ⟨d, ⟨h1, h3⟩, h2⟩
      · rintro ⟨d, ⟨h1, h3⟩, h2⟩; exact ⟨d, h1, h2, h3⟩
    rw [e]
    exact Finset.measurableSet_biUnion _ fun d _ => Finset.measurableSet_biInter _ fun c _ => measurableSet_leadsTo d c

end Verif.Generators
