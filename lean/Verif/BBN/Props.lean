import Verif.BBN.Local
import Mathlib.Algebra.Order.Field.Rat
import Mathlib.Tactic.NormNum

/-!
# Properties of join-tree inference (C14–C22)

The English properties are in `/verif/properties.jsonl`; the vocabulary (`joint`, `massOf`,
`IsNetwork`, …) is in `Verif.BBN.Spec`.
-/

namespace Verif.BBN
open Function

section
variable {V S K : Type} [LinearOrder V] [DecidableEq S] [Field K] [LinearOrder K]
  [IsStrictOrderedRing K]

/-! ### Auxiliary facts -/

theorem massOf_congr {dom : V → List S} {nodes : List (Node V S K)} {x₀ : V → S}
    {A B : (V → S) → Prop} [DecidablePred A] [DecidablePred B] (h : ∀ x, A x ↔ B x) :
    massOf dom nodes x₀ A = massOf dom nodes x₀ B := by
  rw [massOf_eq_sumOver, massOf_eq_sumOver]
  apply sumOver_congr
  intro x
  simp only [h x]

theorem sumOver_add (dom : V → List S) (vs : List V) (f g : (V → S) → K) (x : V → S) :
    sumOver dom vs (fun y => f y + g y) x = sumOver dom vs f x + sumOver dom vs g x := by
  induction vs generalizing x with
  | nil => rfl
  | cons v vs ih =>
    simp only [sumOver, ih]
    induction dom v with
    | nil => simp
    | cons a l ihl =>
      simp only [List.map_cons, List.sum_cons, ihl]
      ring

theorem massOf_mono {dom : V → List S} {nodes : List (Node V S K)} (hpos : NonNeg dom nodes)
    {x₀ : V → S} (hx₀ : Valid dom x₀) {A B : (V → S) → Prop} [DecidablePred A] [DecidablePred B]
    (h : ∀ x, A x → B x) : massOf dom nodes x₀ A ≤ massOf dom nodes x₀ B := by
  have hsplit : massOf dom nodes x₀ B =
      massOf dom nodes x₀ A + massOf dom nodes x₀ (fun x => B x ∧ ¬ A x) := by
    rw [massOf_eq_sumOver, massOf_eq_sumOver, massOf_eq_sumOver, ← sumOver_add]
    apply sumOver_congr
    intro x
    by_cases ha : A x
    · simp [ha, h x ha]
    · simp [ha]
  rw [hsplit]
  have := massOf_nonneg hpos hx₀ (fun x => B x ∧ ¬ A x)
  linarith

/-- The answers, before splitting into the three cases below. -/
theorem query_answer {nd : Nondet V} (hnd : nd.Legal) {dom : V → List S} (hd : ∀ v, (dom v).Nodup)
    {x₀ : V → S} (hx₀ : Valid dom x₀) {nodes : List (Node V S K)} (hw : NodesWF nodes)
    (hne : nodes ≠ []) (hc : Connected nodes) (hpos : NonNeg dom nodes) {ev : List (V × S)}
    (hk : (ev.map Prod.fst).Nodup) (hev : GoodEvidence dom nodes ev) :
    ∃ res, query nd dom nodes ev = .ok res ∧ (res.map Prod.fst).Perm (allStates dom nodes) ∧
      (res.map Prod.fst).map Prod.fst = nodes.flatMap (fun n => (dom n.var).map fun _ => n.var) ∧
      ∀ v s p, ((v, s), p) ∈ res → p =
        if ev = [] then massOf dom nodes x₀ (fun x => x v = s)
        else massOf dom nodes x₀ (fun x => Agrees ev x ∧ x v = s) /
          massOf dom nodes x₀ (Agrees ev) := by
  obtain ⟨ss, hss, hq⟩ := query_raw hnd hd hx₀ hw hne hc hpos hk hev
  set ms := nodes.flatMap fun n => (ss n.var).map fun s =>
    ((n.var, s), rawAnswer dom nodes ev x₀ n.var s) with hms
  have hkeys : (ms.map Prod.fst).Perm (allStates dom nodes) := by
    have : ms.map Prod.fst = nodes.flatMap fun n => (ss n.var).map fun s => (n.var, s) := by
      rw [hms, List.map_flatMap]
      simp [Function.comp_def]
    rw [this]
    apply List.Perm.flatMap_left
    intro n hn
    exact (hss n hn).map _
  have hvars : (ms.map Prod.fst).map Prod.fst =
      nodes.flatMap (fun n => (dom n.var).map fun _ => n.var) := by
    rw [hms, List.map_flatMap, List.map_flatMap]
    apply List.flatMap_congr
    intro n hn
    simp only [List.map_map, Function.comp_def, List.map_const', (hss n hn).length_eq]
  have hmem : ∀ v s p, ((v, s), p) ∈ ms → v ∈ nodes.map Node.var ∧
      p = rawAnswer dom nodes ev x₀ v s := by
    intro v s p h
    obtain ⟨n, hn, h⟩ := List.mem_flatMap.1 h
    obtain ⟨t, ht, heq⟩ := List.mem_map.1 h
    simp only [Prod.mk.injEq] at heq
    obtain ⟨⟨rfl, rfl⟩, rfl⟩ := heq
    exact ⟨List.mem_map_of_mem hn, rfl⟩
  by_cases he : ev = []
  · refine ⟨ms, by rw [hq]; simp [he], hkeys, hvars, ?_⟩
    intro v s p h
    rw [if_pos he, (hmem v s p h).2]
    unfold rawAnswer
    apply massOf_congr
    intro x
    simp [he, Agrees]
  · refine ⟨normalise ms, by rw [hq]; simp [he], ?_, ?_, ?_⟩
    · have : (normalise ms).map Prod.fst = ms.map Prod.fst := by
        unfold normalise
        rw [List.map_map]
        apply List.map_congr_left
        intro m _
        simp only [Function.comp_def]
        split <;> rfl
      rw [this]; exact hkeys
    · have : (normalise ms).map Prod.fst = ms.map Prod.fst := by
        unfold normalise
        rw [List.map_map]
        apply List.map_congr_left
        intro m _
        simp only [Function.comp_def]
        split <;> rfl
      rw [this]; exact hvars
    · intro v s p h
      rw [if_neg he]
      unfold normalise at h
      obtain ⟨⟨⟨v', s'⟩, p'⟩, hm, heq⟩ := List.mem_map.1 h
      obtain ⟨hv, hp⟩ := hmem _ _ _ hm
      obtain ⟨n, hn, rfl⟩ := List.mem_map.1 hv
      have hz : ((ms.filter (·.1.1 = n.var)).map (·.2)).foldl (· + ·) 0 =
          massOf dom nodes x₀ (Agrees ev) := by
        rw [← List.sum_eq_foldl, hms, sum_filter_var hw.nodup ss (rawAnswer dom nodes ev x₀) hn]
        rw [← massOf_split hd hw (Agrees ev) (List.mem_map_of_mem hn) x₀]
        exact ((hss n hn).map _).sum_eq
      simp only [hz] at heq
      split at heq
      · rename_i h0
        simp only [Prod.mk.injEq] at heq
        obtain ⟨⟨rfl, rfl⟩, rfl⟩ := heq
        rw [h0, div_zero, hp]
        apply le_antisymm _ (massOf_nonneg hpos hx₀ _)
        rw [← h0]
        exact massOf_mono hpos hx₀ fun x h => h.1
      · simp only [Prod.mk.injEq] at heq
        obtain ⟨⟨rfl, rfl⟩, rfl⟩ := heq
        rw [hp]
        rfl

/-! ### The example network used below -/

/-- `Nondet` as in CPython with one particular set order. -/
def exNd : Nondet ℕ := ⟨codeSort (fun _ => ""), fun _ l => l⟩

theorem exNd_legal : exNd.Legal where
  sort_perm := fun cl l => List.mergeSort_perm _ _
  sort_mass := by
    intro cl l
    unfold exNd codeSort
    have h := List.pairwise_mergeSort (le := fun a b : ℕ × ℕ =>
      (decide (mass cl b < mass cl a) ||
      (mass cl a == mass cl b && (decide (cost cl a < cost cl b) ||
        (cost cl a == cost cl b && decide (("" : String) ≤ "")))))) ?_ ?_ l
    · refine h.imp ?_
      intro a b hab
      simp at hab
      omega
    · intro a b c hab hbc
      simp at hab hbc ⊢
      omega
    · intro a b
      simp
      omega
  ord_perm := fun _ l => List.Perm.refl l

/-- `0 → 1 → 2` and `0 → 2`: a network with a loop in its skeleton, two states each. -/
def exA : Node ℕ Bool ℚ :=
  { args := [0], fn := fun | [true] => 3/10 | _ => 7/10, var := 0 }
@[inherit_doc exA]
def exB : Node ℕ Bool ℚ :=
  { args := [1, 0], var := 1, fn := fun
      | [true, true] => 9/10 | [false, true] => 1/10 | [true, false] => 1/5 | _ => 4/5 }
@[inherit_doc exA]
def exC : Node ℕ Bool ℚ :=
  { args := [2, 0, 1], var := 2, fn := fun
      | [true, true, true] => 1 | [false, true, true] => 0
      | [true, _, _] => 1/4 | _ => 3/4 }
@[inherit_doc exA]
def exNodes : List (Node ℕ Bool ℚ) := [exA, exB, exC]
/-- Two states for every variable. -/
def exDom : ℕ → List Bool := fun _ => [true, false]

theorem exNodes_network : IsNetwork exDom exNodes where
  wf := ⟨by decide, by decide, by decide, by decide⟩
  nonempty := by decide
  acyclic := by
    have hlt : ∀ u w, Graph.EdgeRel (arrows exNodes) u w → u < w := by
      intro u w h
      have h' : (u, w) ∈ arrows exNodes := h
      have : ∀ e ∈ arrows exNodes, e.1 < e.2 := by decide
      exact this _ h'
    intro v hv
    have : ∀ w, Relation.TransGen (Graph.EdgeRel (arrows exNodes)) v w → v < w := by
      intro w h
      induction h with
      | single h => exact hlt _ _ h
      | tail _ h ih => exact ih.trans (hlt _ _ h)
    exact lt_irrefl _ (this v hv)
  connected := by
    have h0 : ∀ u ∈ exNodes.map Node.var, Graph.WConn (arrows exNodes) 0 u := by
      intro u hu
      have : u = 0 ∨ u = 1 ∨ u = 2 := by
        simpa [exNodes, exA, exB, exC] using hu
      rcases this with rfl | rfl | rfl
      · exact Relation.ReflTransGen.refl
      · exact Graph.wconn_of_mem (by decide)
      · exact Graph.wconn_of_mem (by decide)
    intro u hu w hw
    exact (Graph.WConn.symm (h0 u hu)).trans (h0 w hw)
  states_nodup := fun _ _ => by simp [exDom]
  nonneg := by
    intro n hn x _
    simp only [exNodes, List.mem_cons, List.not_mem_nil, or_false] at hn
    rcases hn with rfl | rfl | rfl
    · simp only [exA, List.map_cons, List.map_nil]
      cases x 0 <;> norm_num
    · simp only [exB, List.map_cons, List.map_nil]
      cases x 0 <;> cases x 1 <;> norm_num
    · simp only [exC, List.map_cons, List.map_nil]
      cases x 0 <;> cases x 1 <;> cases x 2 <;> norm_num
  normalised := by
    intro n hn x _
    simp only [exNodes, List.mem_cons, List.not_mem_nil, or_false] at hn
    rcases hn with rfl | rfl | rfl
    · simp [exA, exDom]; norm_num
    · simp only [exB, exDom, List.map_cons, List.map_nil, List.sum_cons, List.sum_nil,
        Function.update_self, Function.update_of_ne (by decide : (0 : ℕ) ≠ 1)]
      cases x 0 <;> norm_num
    · simp only [exC, exDom, List.map_cons, List.map_nil, List.sum_cons, List.sum_nil,
        Function.update_self, Function.update_of_ne (by decide : (0 : ℕ) ≠ 2),
        Function.update_of_ne (by decide : (1 : ℕ) ≠ 2)]
      cases x 0 <;> cases x 1 <;> norm_num

theorem exDom_valid : ∀ v ∈ exNodes.map Node.var, true ∈ exDom v := fun _ _ => by simp [exDom]

/-! ### C14 -/

theorem query_marginals_aux {nd : Nondet V} (hnd : nd.Legal) {dom : V → List S}
    {nodes : List (Node V S K)} (hN : IsNetwork dom nodes) (hd : ∀ v, (dom v).Nodup) {x₀ : V → S}
    (hx₀ : Valid dom x₀) :
    ∃ res, query nd dom nodes [] = .ok res ∧
      (res.map Prod.fst).Perm (allStates dom nodes) ∧
      (∀ v s p, ((v, s), p) ∈ res → p = massOf dom nodes x₀ (fun x => x v = s)) ∧
      (∀ v s p, ((v, s), p) ∈ res → 0 ≤ p) ∧
      (∀ v ∈ nodes.map Node.var,
        ((dom v).map fun s => massOf dom nodes x₀ (fun x => x v = s)).sum = 1) := by
  obtain ⟨res, h1, h2, _, h3⟩ := query_answer hnd hd hx₀ hN.wf hN.nonempty
    hN.connected hN.nonneg (ev := []) (by simp) (by simp [GoodEvidence])
  refine ⟨res, h1, h2, fun v s p h => by simpa using h3 v s p h, ?_, ?_⟩
  · intro v s p h
    have := h3 v s p h
    simp only [if_true] at this
    rw [this]
    exact massOf_nonneg hN.nonneg hx₀ _
  · intro v hv
    rw [← massOf_total hN.wf hN.acyclic hN.normalised hx₀,
      ← massOf_split hd hN.wf (fun _ => True) hv x₀]
    congr 1
    apply List.map_congr_left
    intro s _
    exact massOf_congr (by simp)

/-- **C14.** A query without evidence succeeds, reports each (variable, state) pair exactly once,
with the exact marginal probability; the marginals of each variable are nonnegative and sum to
one. -/
theorem query_marginals {nd : Nondet V} (hnd : nd.Legal) {dom : V → List S}
    {nodes : List (Node V S K)} (hN : IsNetwork dom nodes) {x₀ : V → S}
    (hx₀ : ∀ v ∈ nodes.map Node.var, x₀ v ∈ dom v) :
    ∃ res, query nd dom nodes [] = .ok res ∧
      (res.map Prod.fst).Perm (allStates dom nodes) ∧
      (∀ v s p, ((v, s), p) ∈ res → p = massOf dom nodes x₀ (fun x => x v = s)) ∧
      (∀ v s p, ((v, s), p) ∈ res → 0 ≤ p) ∧
      (∀ v ∈ nodes.map Node.var,
        ((dom v).map fun s => massOf dom nodes x₀ (fun x => x v = s)).sum = 1) := by
  obtain ⟨dom', h, hd, hx⟩ := exists_total_dom hN.states_nodup hx₀
  obtain ⟨res, h1, h2, h3, h4, h5⟩ := query_marginals_aux hnd (hN.congr h) hd hx
  rw [query_dom_congr hnd hN.wf h] at h1
  rw [allStates_congr h] at h2
  simp only [massOf_dom_congr h] at h3 h5
  refine ⟨res, h1, h2, h3, h4, fun v hv => ?_⟩
  rw [← h v hv]
  exact h5 v hv

example : ∃ res, query exNd exDom exNodes [] = .ok res ∧ res.length = 6 := by
  obtain ⟨res, h, hp, _⟩ := query_marginals exNd_legal exNodes_network exDom_valid
  exact ⟨res, h, by simpa [allStates, exNodes, exDom] using hp.length_eq⟩

/-! ### C15 -/

theorem query_conditional_aux {nd : Nondet V} (hnd : nd.Legal) {dom : V → List S}
    {nodes : List (Node V S K)} (hN : IsNetwork dom nodes) (hd : ∀ v, (dom v).Nodup) {x₀ : V → S}
    (hx₀ : Valid dom x₀)
    {ev : List (V × S)} (hk : (ev.map Prod.fst).Nodup) (hev : GoodEvidence dom nodes ev)
    (hpos : 0 < massOf dom nodes x₀ (Agrees ev)) :
    ∃ res, query nd dom nodes ev = .ok res ∧
      (res.map Prod.fst).Perm (allStates dom nodes) ∧
      (∀ v s p, ((v, s), p) ∈ res →
        p = massOf dom nodes x₀ (fun x => Agrees ev x ∧ x v = s) /
          massOf dom nodes x₀ (Agrees ev) ∧ 0 ≤ p) ∧
      (∀ v ∈ nodes.map Node.var, ((res.filter (·.1.1 = v)).map (·.2)).sum = 1) ∧
      (∀ v s t p, (v, s) ∈ ev → ((v, t), p) ∈ res → p = if t = s then 1 else 0) := by
  obtain ⟨res, h1, h2, _, h3⟩ := query_answer hnd hd hx₀ hN.wf hN.nonempty
    hN.connected hN.nonneg hk hev
  have hne0 := hpos.ne'
  have hall : ∀ v s p, ((v, s), p) ∈ res →
      p = massOf dom nodes x₀ (fun x => Agrees ev x ∧ x v = s) /
        massOf dom nodes x₀ (Agrees ev) := by
    intro v s p h
    rw [h3 v s p h]
    split
    · rename_i he
      have hZ : massOf dom nodes x₀ (Agrees ev) = 1 := by
        rw [← massOf_total hN.wf hN.acyclic hN.normalised hx₀]
        exact massOf_congr (by simp [he, Agrees])
      rw [hZ, div_one]
      exact massOf_congr (by simp [he, Agrees])
    · rfl
  refine ⟨res, h1, h2, fun v s p h => ?_, ?_, ?_⟩
  · refine ⟨hall v s p h, ?_⟩
    rw [hall v s p h]
    exact div_nonneg (massOf_nonneg hN.nonneg hx₀ _) hpos.le
  · intro v hv
    obtain ⟨n, hn, rfl⟩ := List.mem_map.1 hv
    -- the entries of a variable
    have hf : ((res.filter (·.1.1 = n.var)).map (·.2)) =
        ((res.filter (·.1.1 = n.var)).map (·.1.2)).map fun s =>
          massOf dom nodes x₀ (fun x => Agrees ev x ∧ x n.var = s) /
            massOf dom nodes x₀ (Agrees ev) := by
      rw [List.map_map]
      apply List.map_congr_left
      rintro ⟨⟨v, s⟩, p⟩ hm
      rw [List.mem_filter] at hm
      have hv : v = n.var := by simpa using hm.2
      subst hv
      exact hall _ s p hm.1
    have hperm : ((res.filter (·.1.1 = n.var)).map (·.1.2)).Perm (dom n.var) := by
      have hp := (h2.filter (fun q => decide (q.1 = n.var))).map Prod.snd
      rw [List.filter_map, List.map_map] at hp
      refine (hp.trans (List.Perm.of_eq ?_))
      have hw := hN.wf.nodup
      unfold allStates
      clear hp h2 h3 hall hf h1
      generalize nodes = l at hn hw
      induction l with
      | nil => simp at hn
      | cons m l ih =>
        rw [List.map_cons, List.nodup_cons] at hw
        rw [List.flatMap_cons, List.filter_append, List.map_append]
        by_cases hmn : m.var = n.var
        · have h1 : ((l.flatMap fun n => (dom n.var).map fun s => (n.var, s)).filter
              fun q => decide (q.1 = n.var)) = [] := by
            rw [List.filter_eq_nil_iff]
            intro a ha
            obtain ⟨k, hk, ha⟩ := List.mem_flatMap.1 ha
            obtain ⟨s, _, rfl⟩ := List.mem_map.1 ha
            simp only [decide_eq_true_eq]
            intro hkn
            exact hw.1 (List.mem_map.2 ⟨k, hk, hkn.trans hmn.symm⟩)
          rw [h1, List.filter_eq_self.2]
          · simp [Function.comp_def, hmn]
          · intro a ha
            obtain ⟨s, _, rfl⟩ := List.mem_map.1 ha
            simpa using hmn
        · have hnl : n ∈ l := by
            rcases List.mem_cons.1 hn with rfl | h
            · exact absurd rfl hmn
            · exact h
          rw [ih hnl hw.2, List.filter_eq_nil_iff.2]
          · rfl
          · intro a ha
            obtain ⟨s, _, rfl⟩ := List.mem_map.1 ha
            simpa using hmn
    rw [hf, (hperm.map _).sum_eq]
    have hdiv : ((dom n.var).map fun s =>
        massOf dom nodes x₀ (fun x => Agrees ev x ∧ x n.var = s) /
          massOf dom nodes x₀ (Agrees ev)).sum =
        ((dom n.var).map fun s =>
          massOf dom nodes x₀ (fun x => Agrees ev x ∧ x n.var = s)).sum /
          massOf dom nodes x₀ (Agrees ev) := by
      induction dom n.var with
      | nil => simp
      | cons a l ih => simp only [List.map_cons, List.sum_cons, ih, add_div]
    rw [hdiv, massOf_split hd hN.wf (Agrees ev) hv x₀, div_self hne0]
  · intro v s t p hvs hp
    rw [hall v t p hp]
    split
    · rename_i hts
      subst hts
      have : massOf dom nodes x₀ (fun x => Agrees ev x ∧ x v = t) =
          massOf dom nodes x₀ (Agrees ev) :=
        massOf_congr fun x => ⟨fun h => h.1, fun h => ⟨h, h _ hvs⟩⟩
      rw [this, div_self hne0]
    · rename_i hts
      have : massOf dom nodes x₀ (fun x => Agrees ev x ∧ x v = t) =
          massOf dom nodes x₀ (fun _ => False) :=
        massOf_congr fun x => ⟨fun h => hts (h.2.symm.trans (h.1 _ hvs)), fun h => h.elim⟩
      rw [this]
      have h0 : massOf dom nodes x₀ (fun _ => False) = 0 := by simp [massOf]
      rw [h0, zero_div]

/-- **C15.** A query with evidence of positive probability returns the exact conditional
distribution of every variable; it sums to one, and an observed variable has probability one at
its observed state. -/
theorem query_conditional {nd : Nondet V} (hnd : nd.Legal) {dom : V → List S}
    {nodes : List (Node V S K)} (hN : IsNetwork dom nodes) {x₀ : V → S}
    (hx₀ : ∀ v ∈ nodes.map Node.var, x₀ v ∈ dom v)
    {ev : List (V × S)} (hk : (ev.map Prod.fst).Nodup) (hev : GoodEvidence dom nodes ev)
    (hpos : 0 < massOf dom nodes x₀ (Agrees ev)) :
    ∃ res, query nd dom nodes ev = .ok res ∧
      (res.map Prod.fst).Perm (allStates dom nodes) ∧
      (∀ v s p, ((v, s), p) ∈ res →
        p = massOf dom nodes x₀ (fun x => Agrees ev x ∧ x v = s) /
          massOf dom nodes x₀ (Agrees ev) ∧ 0 ≤ p) ∧
      (∀ v ∈ nodes.map Node.var, ((res.filter (·.1.1 = v)).map (·.2)).sum = 1) ∧
      (∀ v s t p, (v, s) ∈ ev → ((v, t), p) ∈ res → p = if t = s then 1 else 0) := by
  obtain ⟨dom', h, hd, hx⟩ := exists_total_dom hN.states_nodup hx₀
  rw [← massOf_dom_congr h] at hpos
  have := query_conditional_aux hnd (hN.congr h) hd hx hk (hev.congr h) hpos
  simpa only [query_dom_congr hnd hN.wf h, allStates_congr h, massOf_dom_congr h] using this

theorem ex_evidence_pos :
    0 < massOf exDom exNodes (fun _ => true) (Agrees [(2, true)]) := by
  decide +kernel

example : ∃ res, query exNd exDom exNodes [(2, true)] = .ok res ∧
    ((res.filter (·.1.1 = 0)).map (·.2)).sum = 1 := by
  obtain ⟨res, h, _, _, hs, _⟩ := query_conditional exNd_legal exNodes_network exDom_valid
    (ev := [(2, true)]) (by decide) (by unfold GoodEvidence; decide) ex_evidence_pos
  exact ⟨res, h, hs 0 (by decide)⟩

/-! ### C16 -/

theorem query_impossible_aux {nd : Nondet V} (hnd : nd.Legal) {dom : V → List S}
    {nodes : List (Node V S K)} (hN : IsNetwork dom nodes) (hd : ∀ v, (dom v).Nodup) {x₀ : V → S}
    (hx₀ : Valid dom x₀)
    {ev : List (V × S)} (hk : (ev.map Prod.fst).Nodup) (hev : GoodEvidence dom nodes ev)
    (hzero : massOf dom nodes x₀ (Agrees ev) = 0) :
    ∃ res, query nd dom nodes ev = .ok res ∧
      (res.map Prod.fst).Perm (allStates dom nodes) ∧ ∀ v s p, ((v, s), p) ∈ res → p = 0 := by
  obtain ⟨res, h1, h2, _, h3⟩ := query_answer hnd hd hx₀ hN.wf hN.nonempty
    hN.connected hN.nonneg hk hev
  refine ⟨res, h1, h2, fun v s p h => ?_⟩
  have hne : ev ≠ [] := by
    rintro rfl
    have hZ : massOf dom nodes x₀ (Agrees []) = 1 := by
      rw [← massOf_total hN.wf hN.acyclic hN.normalised hx₀]
      exact massOf_congr (by simp [Agrees])
    rw [hZ] at hzero
    exact one_ne_zero hzero
  rw [h3 v s p h, if_neg hne, hzero, div_zero]

/-- **C16.** With evidence of probability zero a query does not fail and returns zero for every
state of every variable. -/
theorem query_impossible {nd : Nondet V} (hnd : nd.Legal) {dom : V → List S}
    {nodes : List (Node V S K)} (hN : IsNetwork dom nodes) {x₀ : V → S}
    (hx₀ : ∀ v ∈ nodes.map Node.var, x₀ v ∈ dom v)
    {ev : List (V × S)} (hk : (ev.map Prod.fst).Nodup) (hev : GoodEvidence dom nodes ev)
    (hzero : massOf dom nodes x₀ (Agrees ev) = 0) :
    ∃ res, query nd dom nodes ev = .ok res ∧
      (res.map Prod.fst).Perm (allStates dom nodes) ∧ ∀ v s p, ((v, s), p) ∈ res → p = 0 := by
  obtain ⟨dom', h, hd, hx⟩ := exists_total_dom hN.states_nodup hx₀
  rw [← massOf_dom_congr h] at hzero
  have := query_impossible_aux hnd (hN.congr h) hd hx hk (hev.congr h) hzero
  simpa only [query_dom_congr hnd hN.wf h, allStates_congr h, massOf_dom_congr h] using this

theorem ex_evidence_zero :
    massOf exDom exNodes (fun _ => true) (Agrees [(0, true), (1, true), (2, false)]) = 0 := by
  decide +kernel

example : ∃ res, query exNd exDom exNodes [(0, true), (1, true), (2, false)] = .ok res ∧
    ∀ v s p, ((v, s), p) ∈ res → p = 0 := by
  obtain ⟨res, h, _, h0⟩ := query_impossible exNd_legal exNodes_network exDom_valid
    (ev := [(0, true), (1, true), (2, false)]) (by decide)
    (by unfold GoodEvidence; decide) ex_evidence_zero
  exact ⟨res, h, h0⟩

/-! ### C17 -/

theorem validateKeyvals_error {dom : V → List S} {nodes : List (Node V S K)} (ev : List (V × S))
    (h : ¬ GoodEvidence dom nodes ev) :
    validateKeyvals dom nodes ev = .error .variableNotInGraph ∨
    validateKeyvals dom nodes ev = .error .valueNotInDomain := by
  induction ev with
  | nil => exact absurd (by simp [GoodEvidence]) h
  | cons p ev ih =>
    obtain ⟨k, v⟩ := p
    unfold validateKeyvals
    by_cases h1 : k ∉ nodes.map Node.var
    · rw [if_pos h1]; exact Or.inl rfl
    · rw [if_neg h1]
      by_cases h2 : v ∉ dom k
      · rw [if_pos h2]; exact Or.inr rfl
      · rw [if_neg h2]
        apply ih
        intro hg
        apply h
        intro p hp
        rcases List.mem_cons.1 hp with rfl | hp
        · exact ⟨not_not.1 h1, not_not.1 h2⟩
        · exact hg p hp

theorem query_raises_iff_aux {nd : Nondet V} (hnd : nd.Legal) {dom : V → List S}
    {nodes : List (Node V S K)} (hN : IsNetwork dom nodes) (hd : ∀ v, (dom v).Nodup) {x₀ : V → S}
    (hx₀ : Valid dom x₀)
    {ev : List (V × S)} (hk : (ev.map Prod.fst).Nodup) :
    ((∃ e, query nd dom nodes ev = .error e) ↔
      ∃ p ∈ ev, p.1 ∉ nodes.map Node.var ∨ p.2 ∉ dom p.1) ∧
    (∀ e, query nd dom nodes ev = .error e → e = .variableNotInGraph ∨ e = .valueNotInDomain) := by
  by_cases hg : GoodEvidence dom nodes ev
  · obtain ⟨res, h1, _⟩ := query_answer hnd hd hx₀ hN.wf hN.nonempty
      hN.connected hN.nonneg hk hg
    rw [h1]
    refine ⟨⟨?_, ?_⟩, ?_⟩
    · rintro ⟨e, he⟩; cases he
    · rintro ⟨p, hp, h | h⟩
      · exact absurd (hg p hp).1 h
      · exact absurd (hg p hp).2 h
    · intro e he; cases he
  · have hbad : ∃ p ∈ ev, p.1 ∉ nodes.map Node.var ∨ p.2 ∉ dom p.1 := by
      unfold GoodEvidence at hg
      push Not at hg
      obtain ⟨p, hp, h⟩ := hg
      refine ⟨p, hp, ?_⟩
      by_cases h1 : p.1 ∈ nodes.map Node.var
      · exact Or.inr (h h1)
      · exact Or.inl h1
    rcases validateKeyvals_error ev hg with h | h
    · have hq : query nd dom nodes ev = .error .variableNotInGraph := by
        simp only [query, h, bind, Except.bind]
      rw [hq]
      exact ⟨⟨fun _ => hbad, fun _ => ⟨_, rfl⟩⟩, fun e he => by cases he; exact Or.inl rfl⟩
    · have hq : query nd dom nodes ev = .error .valueNotInDomain := by
        simp only [query, h, bind, Except.bind]
      rw [hq]
      exact ⟨⟨fun _ => hbad, fun _ => ⟨_, rfl⟩⟩, fun e he => by cases he; exact Or.inr rfl⟩

/-- **C17.** A query fails exactly when the evidence names something that is not a variable or a
value that is not a state of its variable, and then with one of the two validation errors. -/
theorem query_raises_iff {nd : Nondet V} (hnd : nd.Legal) {dom : V → List S}
    {nodes : List (Node V S K)} (hN : IsNetwork dom nodes) {x₀ : V → S}
    (hx₀ : ∀ v ∈ nodes.map Node.var, x₀ v ∈ dom v)
    {ev : List (V × S)} (hk : (ev.map Prod.fst).Nodup) :
    ((∃ e, query nd dom nodes ev = .error e) ↔
      ∃ p ∈ ev, p.1 ∉ nodes.map Node.var ∨ p.2 ∉ dom p.1) ∧
    (∀ e, query nd dom nodes ev = .error e → e = .variableNotInGraph ∨ e = .valueNotInDomain) := by
  obtain ⟨dom', h, hd, hx⟩ := exists_total_dom hN.states_nodup hx₀
  have := query_raises_iff_aux hnd (hN.congr h) hd hx hk
  rw [query_dom_congr hnd hN.wf h] at this
  refine ⟨this.1.trans ?_, this.2⟩
  constructor
  · rintro ⟨p, hp, hc⟩
    refine ⟨p, hp, ?_⟩
    by_cases hv : p.1 ∈ nodes.map Node.var
    · rw [h _ hv] at hc; exact hc
    · exact Or.inl hv
  · rintro ⟨p, hp, hc⟩
    refine ⟨p, hp, ?_⟩
    by_cases hv : p.1 ∈ nodes.map Node.var
    · rw [h _ hv]; exact hc
    · exact Or.inl hv

example : ∃ e, query exNd exDom exNodes [(2, true), (7, true)] = .error e :=
  (query_raises_iff exNd_legal exNodes_network exDom_valid (by decide)).1.2
    ⟨(7, true), by decide, Or.inl (by decide)⟩

example : ¬ ∃ e, query exNd exDom exNodes [(2, true), (1, false)] = .error e := by
  rw [(query_raises_iff exNd_legal exNodes_network exDom_valid (by decide)).1]
  decide

end

end Verif.BBN
