import Verif.BBN.Sample
import Verif.BBN.EngineProps
import Mathlib.Algebra.BigOperators.Group.Finset.Basic

/-!
# Lemmas on sampling
-/

namespace Verif.BBN
open Function

section
variable {V S K : Type} [LinearOrder V] [DecidableEq S] [Field K] [LinearOrder K]
  [IsStrictOrderedRing K]

omit [DecidableEq S] in
theorem insertKey_perm (p : V × S) (l : List (V × S)) : (insertKey p l).Perm (p :: l) := by
  induction l with
  | nil => exact List.Perm.refl _
  | cons q l ih =>
    simp only [insertKey]
    split
    · exact List.Perm.refl _
    · exact (ih.cons q).trans (List.Perm.swap _ _ _)

omit [DecidableEq S] in
theorem sampleKey_perm (l : List (V × S)) : (sampleKey l).Perm l := by
  induction l with
  | nil => exact List.Perm.refl _
  | cons p l ih => exact (insertKey_perm p _).trans (ih.cons p)

/-! ### Selection -/

omit [DecidableEq S] [LinearOrder K] [IsStrictOrderedRing K] in
theorem cumulativeFrom_eq (a : K) (l : List (S × K)) :
    cumulativeFrom a l = (cumulative l).map fun q => (q.1, a + q.2) := by
  induction l generalizing a with
  | nil => rfl
  | cons q l ih =>
    obtain ⟨s, p⟩ := q
    simp only [cumulativeFrom, cumulative, List.map_cons, ih, List.map_map, Function.comp_def, add_assoc]

omit [DecidableEq S] [LinearOrder K] [IsStrictOrderedRing K] in
theorem cumulative_cons (s : S) (p : K) (l : List (S × K)) :
    cumulative ((s, p) :: l) = (s, p) :: (cumulative l).map fun q => (q.1, p + q.2) := by
  rw [← cumulativeFrom_eq]; rfl

omit [DecidableEq S] in
theorem scan_iff_aux (dens : List (S × K)) (hp : ∀ q ∈ dens, 0 ≤ q.2) (a r : K) (har : a < r)
    (s : S) :
    scan r ((cumulative dens).map fun q => (q.1, a + q.2)) = .ok s ↔
      ∃ l₁ p l₂, dens = l₁ ++ (s, p) :: l₂ ∧ a + (l₁.map Prod.snd).sum < r ∧
        r ≤ a + (l₁.map Prod.snd).sum + p := by
  induction dens generalizing a with
  | nil => simp [cumulative, scan]
  | cons q dens ih =>
    obtain ⟨s₀, p₀⟩ := q
    have hp' : ∀ q ∈ dens, 0 ≤ q.2 := fun q hq => hp q (List.mem_cons_of_mem _ hq)
    simp only [cumulative_cons, List.map_cons, List.map_map, scan]
    by_cases h : a + p₀ < r
    · rw [if_pos h]
      have hfun : ((fun q : S × K => (q.1, a + q.2)) ∘ fun q : S × K => (q.1, p₀ + q.2)) =
          fun q : S × K => (q.1, (a + p₀) + q.2) := by
        funext q; simp [add_assoc]
      rw [hfun, ih hp' (a + p₀) h]
      constructor
      · rintro ⟨l₁, p, l₂, rfl, h1, h2⟩
        refine ⟨(s₀, p₀) :: l₁, p, l₂, rfl, ?_, ?_⟩
        · simpa [add_assoc] using h1
        · simpa [add_assoc] using h2
      · rintro ⟨l₁, p, l₂, heq, h1, h2⟩
        cases l₁ with
        | nil =>
          simp only [List.nil_append, List.cons.injEq, Prod.mk.injEq] at heq
          obtain ⟨⟨rfl, rfl⟩, rfl⟩ := heq
          simp only [List.map_nil, List.sum_nil, add_zero] at h2
          exact absurd h (not_lt.2 h2)
        | cons q l₁ =>
          simp only [List.cons_append, List.cons.injEq] at heq
          obtain ⟨rfl, rfl⟩ := heq
          refine ⟨l₁, p, l₂, rfl, ?_, ?_⟩
          · simpa [add_assoc] using h1
          · simpa [add_assoc] using h2
    · rw [if_neg h]
      constructor
      · rintro h'
        cases h'
        exact ⟨[], p₀, dens, rfl, by simpa using har, by simpa using not_lt.1 h⟩
      · rintro ⟨l₁, p, l₂, heq, h1, h2⟩
        cases l₁ with
        | nil =>
          simp only [List.nil_append, List.cons.injEq, Prod.mk.injEq] at heq
          obtain ⟨⟨rfl, rfl⟩, rfl⟩ := heq
          rfl
        | cons q l₁ =>
          simp only [List.cons_append, List.cons.injEq] at heq
          obtain ⟨rfl, rfl⟩ := heq
          exfalso
          apply h
          refine lt_of_le_of_lt ?_ h1
          simp only [List.map_cons, List.sum_cons]
          have : 0 ≤ (l₁.map Prod.snd).sum := by
            apply List.sum_nonneg
            intro x hx
            obtain ⟨q, hq, rfl⟩ := List.mem_map.1 hx
            exact hp' q (List.mem_append_left _ hq)
          linarith

omit [DecidableEq S] in
/-- The state chosen is the one whose slice of `(0, Σ]` contains `r`. -/
theorem scan_iff (dens : List (S × K)) (hp : ∀ q ∈ dens, 0 ≤ q.2) (r : K) (hr : 0 < r) (s : S) :
    scan r (cumulative dens) = .ok s ↔
      ∃ l₁ p l₂, dens = l₁ ++ (s, p) :: l₂ ∧ (l₁.map Prod.snd).sum < r ∧
        r ≤ (l₁.map Prod.snd).sum + p := by
  have := scan_iff_aux dens hp 0 r hr s
  have hmap : (cumulative dens).map (fun q : S × K => (q.1, 0 + q.2)) = cumulative dens := by
    simp
  rw [hmap] at this
  simpa using this

omit [DecidableEq S] in
theorem scan_total (dens : List (S × K)) (r : K) (h : r ≤ (dens.map Prod.snd).sum) (hr : 0 < r) :
    ∃ s, scan r (cumulative dens) = .ok s := by
  have aux : ∀ (dens : List (S × K)) (a : K), a < r → r ≤ a + (dens.map Prod.snd).sum →
      ∃ s, scan r ((cumulative dens).map fun q => (q.1, a + q.2)) = .ok s := by
    intro dens
    induction dens with
    | nil =>
      intro a h1 h2
      simp only [List.map_nil, List.sum_nil, add_zero] at h2
      exact absurd h1 (not_lt.2 h2)
    | cons q dens ih =>
      obtain ⟨s₀, p₀⟩ := q
      intro a h1 h2
      simp only [cumulative_cons, List.map_cons, List.map_map, scan]
      by_cases h : a + p₀ < r
      · rw [if_pos h]
        have hfun : ((fun q : S × K => (q.1, a + q.2)) ∘ fun q : S × K => (q.1, p₀ + q.2)) =
            fun q : S × K => (q.1, (a + p₀) + q.2) := by
          funext q; simp [add_assoc]
        rw [hfun]
        apply ih _ h
        simpa [add_assoc] using h2
      · rw [if_neg h]; exact ⟨_, rfl⟩
  have := aux dens 0 hr (by simpa using h)
  have hmap : (cumulative dens).map (fun q : S × K => (q.1, 0 + q.2)) = cumulative dens := by
    simp
  rwa [hmap] at this

/-! ### The probability of one complete assignment -/

omit [LinearOrder K] [IsStrictOrderedRing K] in
theorem list_sum_single {l : List S} (hl : l.Nodup) {s : S} (hs : s ∈ l) (f : S → K) :
    (l.map fun t => if t = s then f t else 0).sum = f s := by
  induction l with
  | nil => simp at hs
  | cons a l ih =>
    rw [List.nodup_cons] at hl
    rw [List.map_cons, List.sum_cons]
    by_cases h : a = s
    · subst h
      have : (l.map fun t => if t = a then f t else 0).sum = 0 := by
        apply List.sum_eq_zero
        intro x hx
        obtain ⟨t, ht, rfl⟩ := List.mem_map.1 hx
        rw [if_neg]
        rintro rfl
        exact hl.1 ht
      rw [this, if_pos rfl, add_zero]
    · rw [if_neg h, zero_add]
      exact ih hl.2 ((List.mem_cons.1 hs).resolve_left fun h' => h h'.symm)

omit [LinearOrder K] [IsStrictOrderedRing K] in
theorem sumOver_single {dom : V → List S} (σ : V → S) (vs : List V) (hvs : vs.Nodup)
    (hd : ∀ v ∈ vs, (dom v).Nodup) (hσ : ∀ v ∈ vs, σ v ∈ dom v) (f : (V → S) → K) (x : V → S) :
    sumOver dom vs (fun y => if ∀ v ∈ vs, y v = σ v then f y else 0) x =
      f (fun v => if v ∈ vs then σ v else x v) := by
  induction vs generalizing f x with
  | nil => simp [sumOver]
  | cons w vs ih =>
    rw [List.nodup_cons] at hvs
    simp only [sumOver]
    have h1 : ∀ s, sumOver dom vs
        (fun y => if ∀ v ∈ w :: vs, y v = σ v then f y else 0) (update x w s) =
        if s = σ w then f (fun v => if v ∈ vs then σ v else update x w s v) else 0 := by
      intro s
      have := ih hvs.2 (fun v hv => hd v (List.mem_cons_of_mem _ hv))
        (fun v hv => hσ v (List.mem_cons_of_mem _ hv))
        (fun y => if y w = σ w then f y else 0) (update x w s)
      have e1 : (if w ∈ vs then σ w else update x w s w) = s := by simp [hvs.1]
      simp only [e1] at this
      rw [← this]
      apply sumOver_congr
      intro y
      by_cases hA : ∀ v ∈ vs, y v = σ v
      · by_cases hB : y w = σ w
        · rw [if_pos hA, if_pos hB, if_pos]
          intro v hv
          rcases List.mem_cons.1 hv with rfl | hv
          · exact hB
          · exact hA v hv
        · rw [if_pos hA, if_neg hB, if_neg]
          intro h
          exact hB (h w List.mem_cons_self)
      · rw [if_neg hA, if_neg]
        intro h
        exact hA fun v hv => h v (List.mem_cons_of_mem _ hv)
    rw [List.map_congr_left fun s _ => h1 s]
    rw [list_sum_single (hd w List.mem_cons_self) (hσ w List.mem_cons_self)]
    congr 1
    funext v
    by_cases hv : v ∈ vs
    · simp [hv]
    · by_cases hvw : v = w
      · subst hvw; simp [hv]
      · simp [hv, hvw, update_of_ne hvw]

/-- The probability of a complete assignment is its joint probability. -/
theorem massOf_single {dom : V → List S} {nodes : List (Node V S K)} (hw : NodesWF nodes)
    (hd : ∀ n ∈ nodes, (dom n.var).Nodup) {σ : V → S}
    (hσ : ∀ v ∈ nodes.map Node.var, σ v ∈ dom v) (x₀ : V → S) :
    massOf dom nodes x₀ (fun x => ∀ v ∈ nodes.map Node.var, x v = σ v) = joint nodes σ := by
  rw [massOf_eq_sumOver, sumOver_single σ _ hw.nodup
    (fun v hv => by obtain ⟨n, hn, rfl⟩ := List.mem_map.1 hv; exact hd n hn) hσ]
  unfold joint
  congr 1
  apply List.map_congr_left
  intro n hn
  congr 1
  apply List.map_congr_left
  intro a ha
  simp [hw.args_sub n hn a ha]

/-! ### Exact results -/

/-- A result giving the exact conditional probabilities given `sm`. -/
structure Exact (dom : V → List S) (nodes : List (Node V S K)) (x₀ : V → S) (sm : List (V × S))
    (res : Result V S K) : Prop where
  keys : (res.map Prod.fst).Perm (allStates dom nodes)
  probs : ∀ v s p, ((v, s), p) ∈ res →
    p = massOf dom nodes x₀ (fun x => Agrees sm x ∧ x v = s) / massOf dom nodes x₀ (Agrees sm)

omit [LinearOrder V] [DecidableEq S] [Field K] [LinearOrder K] [IsStrictOrderedRing K] in
theorem agrees_perm {l l' : List (V × S)} (h : l.Perm l') (x : V → S) :
    Agrees l x ↔ Agrees l' x :=
  ⟨fun ha p hp => ha p (h.mem_iff.2 hp), fun ha p hp => ha p (h.mem_iff.1 hp)⟩

theorem Exact.perm {dom : V → List S} {nodes : List (Node V S K)} {x₀ : V → S}
    {l l' : List (V × S)} {res : Result V S K} (h : Exact dom nodes x₀ l res) (hp : l.Perm l') :
    Exact dom nodes x₀ l' res where
  keys := h.keys
  probs := by
    intro v s p hm
    rw [h.probs v s p hm, massOf_congr (agrees_perm hp),
      massOf_congr (A := fun x => Agrees l x ∧ x v = s) (B := fun x => Agrees l' x ∧ x v = s)
        (fun x => by rw [agrees_perm hp])]

/-- Every cached result is exact. -/
def CacheOK (dom : V → List S) (nodes : List (Node V S K)) (x₀ : V → S) (c : Cache V S K) : Prop :=
  ∀ q ∈ c, Exact dom nodes x₀ q.1 q.2

/-- A partial sample that can occur. -/
structure Good (dom : V → List S) (nodes : List (Node V S K)) (x₀ : V → S) (sm : List (V × S)) :
    Prop where
  keys : (sm.map Prod.fst).Nodup
  states : GoodEvidence dom nodes sm
  pos : 0 < massOf dom nodes x₀ (Agrees sm)

variable {nd : Nondet V} {dom : V → List S} {nodes : List (Node V S K)} {x₀ : V → S}

theorem massOf_nonneg' (hN : IsNetwork dom nodes) (hx₀ : ∀ v ∈ nodes.map Node.var, x₀ v ∈ dom v)
    (A : (V → S) → Prop) [DecidablePred A] : 0 ≤ massOf dom nodes x₀ A := by
  obtain ⟨dom', h, hd, hx⟩ := exists_total_dom hN.states_nodup hx₀
  rw [← massOf_dom_congr h]
  exact massOf_nonneg (hN.congr h).nonneg hx A

theorem massOf_mono' (hN : IsNetwork dom nodes) (hx₀ : ∀ v ∈ nodes.map Node.var, x₀ v ∈ dom v)
    {A B : (V → S) → Prop} [DecidablePred A] [DecidablePred B] (hAB : ∀ x, A x → B x) :
    massOf dom nodes x₀ A ≤ massOf dom nodes x₀ B := by
  obtain ⟨dom', h, hd, hx⟩ := exists_total_dom hN.states_nodup hx₀
  rw [← massOf_dom_congr h, ← massOf_dom_congr h]
  exact massOf_mono (hN.congr h).nonneg hx hAB

theorem cachedQuery_ok (hnd : nd.Legal) (hN : IsNetwork dom nodes)
    (hx₀ : ∀ v ∈ nodes.map Node.var, x₀ v ∈ dom v) {c : Cache V S K}
    (hc : CacheOK dom nodes x₀ c) {sm : List (V × S)} (hg : Good dom nodes x₀ sm) :
    ∃ c' res, cachedQuery nd dom nodes c sm = .ok (c', res) ∧ CacheOK dom nodes x₀ c' ∧
      Exact dom nodes x₀ sm res ∧
      (∀ v ∈ nodes.map Node.var, ((res.filter (·.1.1 = v)).map (·.2)).sum = 1) := by
  have hsum : ∀ res, Exact dom nodes x₀ sm res →
      ∀ v ∈ nodes.map Node.var, ((res.filter (·.1.1 = v)).map (·.2)).sum = 1 := by
    intro res hex v hv
    obtain ⟨res', h1, h2, h3, h4, _⟩ := query_conditional hnd hN hx₀ hg.keys hg.states hg.pos
    rw [← h4 v hv]
    -- both lists carry the same probabilities for the same states
    have hval : ∀ r : Result V S K, (∀ v s p, ((v, s), p) ∈ r → p =
        massOf dom nodes x₀ (fun x => Agrees sm x ∧ x v = s) / massOf dom nodes x₀ (Agrees sm)) →
        (r.filter (·.1.1 = v)).map (·.2) = ((r.map Prod.fst).filter (·.1 = v)).map fun q =>
          massOf dom nodes x₀ (fun x => Agrees sm x ∧ x q.1 = q.2) /
            massOf dom nodes x₀ (Agrees sm) := by
      intro r hr
      rw [List.filter_map, List.map_map]
      apply List.map_congr_left
      intro m hm
      exact hr _ _ _ (List.mem_filter.1 hm).1
    rw [hval res hex.probs, hval res' fun v s p h => (h3 v s p h).1]
    exact (((hex.keys.trans h2.symm).filter _).map _).sum_eq
  unfold cachedQuery
  cases hl : c.lookup (sampleKey sm) with
  | some res =>
    have hex : Exact dom nodes x₀ sm res := (hc _ (lookup_mem hl)).perm (sampleKey_perm sm)
    exact ⟨c, res, rfl, hc, hex, hsum res hex⟩
  | none =>
    obtain ⟨res, h1, h2, h3, _, _⟩ := query_conditional hnd hN hx₀ hg.keys hg.states hg.pos
    have hex : Exact dom nodes x₀ sm res := ⟨h2, fun v s p h => (h3 v s p h).1⟩
    refine ⟨(sampleKey sm, res) :: c, res, by simp only [h1], ?_, hex, hsum res hex⟩
    intro q hq
    rcases List.mem_cons.1 hq with rfl | hq
    · exact hex.perm (sampleKey_perm sm).symm
    · exact hc q hq

theorem Good.length_le (hN : IsNetwork dom nodes) {sm : List (V × S)}
    (hg : Good dom nodes x₀ sm) : sm.length ≤ nodes.length := by
  have : (sm.map Prod.fst).Subperm (nodes.map Node.var) := by
    apply List.subperm_of_subset hg.keys
    intro v hv
    obtain ⟨p, hp, rfl⟩ := List.mem_map.1 hv
    exact (hg.states p hp).1
  simpa using this.length_le

omit [IsStrictOrderedRing K] in
theorem agrees_append {sm : List (V × S)} {v : V} {s : S} (x : V → S) :
    Agrees (sm ++ [(v, s)]) x ↔ Agrees sm x ∧ x v = s := by
  constructor
  · intro h
    exact ⟨fun p hp => h p (List.mem_append_left _ hp), h (v, s) (by simp)⟩
  · rintro ⟨h1, h2⟩ p hp
    rcases List.mem_append.1 hp with hp | hp
    · exact h1 p hp
    · rw [List.mem_singleton] at hp
      subst hp; exact h2

theorem Good.snoc {sm : List (V × S)} (hg : Good dom nodes x₀ sm) {v : V} {s : S}
    (hv : v ∈ nodes.map Node.var) (hnew : v ∉ sm.map Prod.fst) (hs : s ∈ dom v)
    (hpos : 0 < massOf dom nodes x₀ (fun x => Agrees sm x ∧ x v = s)) :
    Good dom nodes x₀ (sm ++ [(v, s)]) where
  keys := by
    rw [List.map_append, List.nodup_append]
    refine ⟨hg.keys, by simp, ?_⟩
    intro a ha b hb
    simp only [List.map_cons, List.map_nil, List.mem_singleton] at hb
    rintro rfl
    exact hnew (hb ▸ ha)
  states := by
    intro p hp
    rcases List.mem_append.1 hp with hp | hp
    · exact hg.states p hp
    · rw [List.mem_singleton] at hp
      subst hp; exact ⟨hv, hs⟩
  pos := by rw [massOf_congr agrees_append]; exact hpos

/-- One step of the inner loop, from a good incomplete sample: which variable is chosen depends on
`pick` only, the slices depend on `pick` and the cache only. -/
theorem drawStep_spec (hnd : nd.Legal) (hN : IsNetwork dom nodes)
    (hx₀ : ∀ v ∈ nodes.map Node.var, x₀ v ∈ dom v) {c : Cache V S K}
    (hc : CacheOK dom nodes x₀ c) {sm : List (V × S)} (hg : Good dom nodes x₀ sm)
    (hlt : sm.length < nodes.length) (pick : ℕ) :
    ∃ v ∈ nodes.map Node.var, v ∉ sm.map Prod.fst ∧ ∃ c', CacheOK dom nodes x₀ c' ∧
      ∃ dens : List (S × K), (dens.map Prod.fst).Perm (dom v) ∧
        (∀ q ∈ dens, q.2 = massOf dom nodes x₀ (fun x => Agrees sm x ∧ x v = q.1) /
          massOf dom nodes x₀ (Agrees sm)) ∧ (dens.map Prod.snd).sum = 1 ∧
        ∀ r, drawStep nd dom nodes ⟨pick, r⟩ c sm =
          match scan r (cumulative dens) with
          | .error err => .error err
          | .ok s => .ok (c', sm ++ [(v, s)]) := by
  -- an open node exists
  have hopen : (nodes.filter fun n => n.var ∉ sm.map Prod.fst) ≠ [] := by
    intro h
    have hsub : nodes.map Node.var ⊆ sm.map Prod.fst := by
      intro v hv
      obtain ⟨n, hn, rfl⟩ := List.mem_map.1 hv
      by_contra hcon
      have := List.filter_eq_nil_iff.1 h n hn
      simp only [decide_eq_true_eq, not_not] at this
      exact hcon this
    have := (List.subperm_of_subset hN.wf.nodup hsub).length_le
    simp at this
    omega
  have hidx : pick % (nodes.filter fun n => n.var ∉ sm.map Prod.fst).length <
      (nodes.filter fun n => n.var ∉ sm.map Prod.fst).length :=
    Nat.mod_lt _ (List.length_pos_iff.2 hopen)
  obtain ⟨n, hn⟩ : ∃ n, (nodes.filter fun n => n.var ∉ sm.map Prod.fst)[pick %
      (nodes.filter fun n => n.var ∉ sm.map Prod.fst).length]? = some n :=
    ⟨_, List.getElem?_eq_getElem hidx⟩
  have hnmem := List.mem_filter.1 (List.mem_of_getElem? hn)
  have hv : n.var ∈ nodes.map Node.var := List.mem_map_of_mem hnmem.1
  obtain ⟨c', res, h1, h2, h3, h4⟩ := cachedQuery_ok hnd hN hx₀ hc hg
  refine ⟨n.var, hv, by simpa using hnmem.2, c', h2,
    (res.filter (·.1.1 = n.var)).map fun m => (m.1.2, m.2), ?_, ?_, ?_, ?_⟩
  · rw [List.map_map]
    have h5 := (h3.keys.filter fun q => decide (q.1 = n.var)).map Prod.snd
    rw [allStates_filter hN.wf.nodup hv] at h5
    rw [List.filter_map, List.map_map] at h5
    exact h5
  · intro q hq
    obtain ⟨m, hm, rfl⟩ := List.mem_map.1 hq
    obtain ⟨hm1, hm2⟩ := List.mem_filter.1 hm
    have hm2 : m.1.1 = n.var := of_decide_eq_true hm2
    rw [← hm2]
    exact h3.probs _ _ _ hm1
  · rw [List.map_map]
    exact h4 n.var hv
  · intro r
    unfold drawStep
    simp only [hn, h1]
    rfl

end

end Verif.BBN
