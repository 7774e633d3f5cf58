import Verif.BBN.PropsDSep

/-!
# Acting and observing (C100): probabilities

The network `seeNodes nodes v s` has the functions of `nodes`, with the state `s` in place of `v` in the functions of the children of `v`.
Its graph has no arrows out of `v`.
-/

namespace Verif.BBN
open Function Graph

/-- Specification: the graph without the arrows out of `v`. -/
def cutOut {V : Type} [DecidableEq V] (E : List (V × V)) (v : V) : List (V × V) := E.filter fun e => e.1 ≠ v

section
variable {V S K : Type} [LinearOrder V] [DecidableEq S] [Field K] [LinearOrder K] [IsStrictOrderedRing K] {dom : V → List S}

/-- The factors of all variables except `v`. -/
def restOf (nodes : List (Node V S K)) (v : V) (x : V → S) : K :=
  ((nodes.filter fun n => n.var ≠ v).map fun n => n.fn (n.args.map x)).prod

/-- A node with the state `s` in place of its argument `v`. -/
def seeNode (v : V) (s : S) (n : Node V S K) : Node V S K :=
  if n.var = v then n else
    ⟨⟨n.args.filter (· ≠ v), fun xs => n.fn (n.args.map fun a => if a = v then s else
      (((n.args.filter (· ≠ v)).zip xs).lookup a).getD s)⟩, n.var⟩

def seeNodes (nodes : List (Node V S K)) (v : V) (s : S) : List (Node V S K) := nodes.map (seeNode v s)

omit [DecidableEq S] [Field K] [LinearOrder K] [IsStrictOrderedRing K] in
theorem seeNode_var (v : V) (s : S) (n : Node V S K) : (seeNode v s n).var = n.var := by
  unfold seeNode
  split <;> rfl

omit [DecidableEq S] [Field K] [LinearOrder K] [IsStrictOrderedRing K] in
theorem seeNodes_vars (nodes : List (Node V S K)) (v : V) (s : S) : (seeNodes nodes v s).map Node.var = nodes.map Node.var := by
  unfold seeNodes
  rw [List.map_map]
  exact List.map_congr_left fun n _ => seeNode_var v s n

omit [DecidableEq S] [Field K] [LinearOrder K] [IsStrictOrderedRing K] in
theorem mem_seeNode_args {v : V} {s : S} {n : Node V S K} {a : V} :
    a ∈ (seeNode v s n).args ↔ a ∈ n.args ∧ (n.var = v ∨ a ≠ v) := by
  unfold seeNode
  split
  · rename_i h
    simp [h]
  · rename_i h
    simp [h]

omit [DecidableEq S] [Field K] [LinearOrder K] [IsStrictOrderedRing K] in
theorem seeNode_fn {v : V} {s : S} {n : Node V S K} (h : n.var ≠ v) (x : V → S) :
    (seeNode v s n).fn ((seeNode v s n).args.map x) = n.fn (n.args.map (update x v s)) := by
  unfold seeNode
  rw [if_neg h]
  dsimp only
  congr 1
  apply List.map_congr_left
  intro a ha
  by_cases hav : a = v
  · rw [if_pos hav, hav, update_self]
  · rw [if_neg hav, update_of_ne hav]
    have hmem : a ∈ n.args.filter (· ≠ v) := List.mem_filter.2 ⟨ha, decide_eq_true hav⟩
    have : ∀ l : List V, a ∈ l → (l.zip (l.map x)).lookup a = some (x a) := by
      intro l hl
      induction l with
      | nil => simp at hl
      | cons b l ih =>
        rw [List.map_cons, List.zip_cons_cons, List.lookup_cons]
        by_cases hab : a = b
        · subst hab
          simp
        · have : (a == b) = false := by simpa using hab
          rw [this]
          exact ih ((List.mem_cons.1 hl).resolve_left hab)
    rw [this _ hmem]
    rfl

omit [DecidableEq S] [Field K] [LinearOrder K] [IsStrictOrderedRing K] in
theorem seeNode_fn_self {v : V} {s : S} {n : Node V S K} (h : n.var = v) (x : V → S) :
    (seeNode v s n).fn ((seeNode v s n).args.map x) = n.fn (n.args.map x) := by
  unfold seeNode
  rw [if_pos h]

omit [DecidableEq S] [Field K] [LinearOrder K] [IsStrictOrderedRing K] in
theorem mem_arrows_see {nodes : List (Node V S K)} {v : V} {s : S} (e : V × V) :
    e ∈ arrows (seeNodes nodes v s) ↔ e ∈ cutOut (arrows nodes) v := by
  obtain ⟨a, b⟩ := e
  unfold cutOut
  rw [List.mem_filter, link_arrows, link_arrows]
  simp only [decide_eq_true_eq]
  constructor
  · rintro ⟨n, hn, rfl, ha, hne⟩
    obtain ⟨m, hm, rfl⟩ := List.mem_map.1 hn
    rw [seeNode_var] at hne ⊢
    obtain ⟨h1, h2⟩ := mem_seeNode_args.1 ha
    refine ⟨⟨m, hm, rfl, h1, hne⟩, ?_⟩
    rcases h2 with h2 | h2
    · rw [h2] at hne
      exact hne
    · exact h2
  · rintro ⟨⟨n, hn, rfl, ha, hne⟩, hav⟩
    exact ⟨seeNode v s n, List.mem_map_of_mem hn, seeNode_var v s n, mem_seeNode_args.2 ⟨ha, Or.inr hav⟩, hne⟩

omit [DecidableEq S] [Field K] [LinearOrder K] [IsStrictOrderedRing K] in
theorem see_wf {nodes : List (Node V S K)} (h : NodesWF nodes) (v : V) (s : S) : NodesWF (seeNodes nodes v s) where
  nodup := by
    rw [seeNodes_vars]
    exact h.nodup
  var_mem := by
    intro n hn
    obtain ⟨m, hm, rfl⟩ := List.mem_map.1 hn
    rw [mem_seeNode_args, seeNode_var]
    exact ⟨h.var_mem m hm, em _⟩
  args_nodup := by
    intro n hn
    obtain ⟨m, hm, rfl⟩ := List.mem_map.1 hn
    unfold seeNode
    split
    · exact h.args_nodup m hm
    · exact (h.args_nodup m hm).filter _
  args_sub := by
    intro n hn a ha
    obtain ⟨m, hm, rfl⟩ := List.mem_map.1 hn
    rw [seeNodes_vars]
    exact h.args_sub m hm a (mem_seeNode_args.1 ha).1

omit [DecidableEq S] [LinearOrder K] [IsStrictOrderedRing K] in
theorem see_normalised {nodes : List (Node V S K)} (h : Normalised dom nodes) {v : V} {s : S} (hs : s ∈ dom v) :
    Normalised dom (seeNodes nodes v s) := by
  intro n hn x hx
  obtain ⟨m, hm, rfl⟩ := List.mem_map.1 hn
  rw [seeNode_var]
  rw [seeNode_var] at hx
  by_cases hv : m.var = v
  · simp only [seeNode_fn_self hv]
    apply h m hm
    intro a ha hav
    exact hx a (mem_seeNode_args.2 ⟨ha, Or.inl hv⟩) hav
  · simp only [seeNode_fn hv]
    rw [← h m hm (update x v s)]
    · congr 1
      apply List.map_congr_left
      intro t _
      rw [update_comm fun h' => hv h'.symm]
    · intro a ha hav
      by_cases h' : a = v
      · rw [h', update_self]
        exact hs
      · rw [update_of_ne h']
        exact hx a (mem_seeNode_args.2 ⟨ha, Or.inr h'⟩) hav

omit [DecidableEq S] [LinearOrder K] [IsStrictOrderedRing K] in
theorem joint_rest {nodes : List (Node V S K)} (h : (nodes.map Node.var).Nodup) {n : Node V S K} (hn : n ∈ nodes) (x : V → S) :
    joint nodes x = n.fn (n.args.map x) * restOf nodes n.var x := by
  unfold joint restOf
  induction nodes with
  | nil => simp at hn
  | cons m l ih =>
    rw [List.map_cons, List.nodup_cons] at h
    rcases List.mem_cons.1 hn with rfl | hn
    · rw [List.filter_cons_of_neg (by simp), List.map_cons, List.prod_cons]
      congr 3
      rw [List.filter_eq_self.2]
      intro m hm
      have : m.var ≠ n.var := fun h' => h.1 (h' ▸ List.mem_map_of_mem hm)
      simpa using this
    · have hne : m.var ≠ n.var := fun h' => h.1 (h' ▸ List.mem_map_of_mem hn)
      rw [List.filter_cons_of_pos (by simpa using hne), List.map_cons, List.prod_cons, ih h.2 hn, List.map_cons, List.prod_cons]
      ring

omit [DecidableEq S] [LinearOrder K] [IsStrictOrderedRing K] in
theorem restOf_see (nodes : List (Node V S K)) (v : V) (s : S) (x : V → S) :
    restOf (seeNodes nodes v s) v x = restOf nodes v (update x v s) := by
  unfold restOf seeNodes
  rw [List.filter_map, List.map_map]
  congr 1
  have : nodes.filter ((fun n : Node V S K => decide (n.var ≠ v)) ∘ seeNode v s) = nodes.filter fun n => decide (n.var ≠ v) := by
    apply List.filter_congr
    intro n _
    simp [seeNode_var]
  rw [this]
  apply List.map_congr_left
  intro n hn
  exact seeNode_fn (of_decide_eq_true (List.mem_filter.1 hn).2) x

omit [LinearOrder K] [IsStrictOrderedRing K] in
theorem massWith_eq_sumOver (vs : List V) (J : (V → S) → K) (x₀ : V → S) (A : (V → S) → Prop) [DecidablePred A] :
    massWith dom vs J x₀ A = sumOver dom vs (fun x => if A x then J x else 0) x₀ := by
  rw [sumOver_worlds]
  unfold massWith
  induction worlds dom vs x₀ with
  | nil => rfl
  | cons y l ih =>
    by_cases h : A y
    · simp [h, ih]
    · simp [h, ih]

theorem perm_cons_filter {vs : List V} (h : vs.Nodup) {v : V} (hv : v ∈ vs) : vs.Perm (vs.filter (· ≠ v) ++ [v]) := by
  apply (List.perm_ext_iff_of_nodup h ?_).2
  · intro a
    simp only [List.mem_append, List.mem_filter, decide_eq_true_eq, List.mem_singleton]
    constructor
    · intro ha
      by_cases hav : a = v
      · exact Or.inr hav
      · exact Or.inl ⟨ha, hav⟩
    · rintro (⟨ha, _⟩ | rfl)
      · exact ha
      · exact hv
  · rw [List.nodup_append]
    refine ⟨h.filter _, List.nodup_singleton _, ?_⟩
    intro a ha b hb
    have := of_decide_eq_true (List.mem_filter.1 ha).2
    rw [List.mem_singleton.1 hb]
    exact this

/-- The truncated factorisation, for an event that does not involve `v`. -/
theorem massWith_point {vs : List V} (hvs : vs.Nodup) {v : V} (hv : v ∈ vs) (hd : (dom v).Nodup) (nodes : List (Node V S K)) {s : S}
    (hs : s ∈ dom v) (x₀ : V → S) (B : (V → S) → Prop) [DecidablePred B] (hB : ∀ x t, B (update x v t) ↔ B x) :
    massWith dom vs (truncated nodes v fun t => if t = s then 1 else 0) x₀ B =
      sumOver dom (vs.filter (· ≠ v)) (fun x => if B x then restOf nodes v (update x v s) else 0) x₀ := by
  rw [massWith_eq_sumOver, sumOver_perm dom (perm_cons_filter hvs hv), sumOver_append]
  apply sumOver_congr
  intro y
  simp only [sumOver, hB]
  have : ∀ t, (if B y then truncated nodes v (fun t => if t = s then 1 else 0) (update y v t) else 0) =
      if t = s then (if B y then restOf nodes v (update y v s) else 0) else 0 := by
    intro t
    unfold truncated
    rw [update_self]
    by_cases h : t = s
    · subst h
      simp [restOf]
    · simp [h]
  simp only [this]
  rw [← sum_finset_list hd, Finset.sum_ite_eq', if_pos (List.mem_toFinset.2 hs)]

/-- Probabilities in `seeNodes`: of an event that does not involve `v`, and of one with `v = s`. -/
theorem massOf_see {nodes : List (Node V S K)} (hw : NodesWF nodes) (hd : ∀ u, (dom u).Nodup) (hn : Normalised dom nodes) {x₀ : V → S}
    (hx : Valid dom x₀) {v : V} (hv : v ∈ nodes.map Node.var) {s : S} (hs : s ∈ dom v) :
    (∀ (B : (V → S) → Prop) [DecidablePred B], (∀ x t, B (update x v t) ↔ B x) → massOf dom (seeNodes nodes v s) x₀ B =
      massWith dom (nodes.map Node.var) (truncated nodes v fun t => if t = s then 1 else 0) x₀ B) ∧
    ∀ (A : (V → S) → Prop) [DecidablePred A],
      massOf dom (seeNodes nodes v s) x₀ (fun x => A x ∧ x v = s) = massOf dom nodes x₀ (fun x => A x ∧ x v = s) := by
  obtain ⟨n, hnn, rfl⟩ := List.mem_map.1 hv
  have hj : ∀ x, joint (seeNodes nodes n.var s) x = n.fn (n.args.map x) * restOf nodes n.var (update x n.var s) := by
    intro x
    have h1 : seeNode n.var s n ∈ seeNodes nodes n.var s := List.mem_map_of_mem hnn
    rw [joint_rest (see_wf hw n.var s).nodup h1, seeNode_fn_self rfl, seeNode_var, restOf_see]
  refine ⟨?_, ?_⟩
  · intro B _ hB
    rw [massWith_point hw.nodup hv (hd _) nodes hs x₀ B hB, massOf_eq_sumOver, seeNodes_vars,
      sumOver_perm dom (perm_cons_filter hw.nodup hv), sumOver_append]
    refine sumOver_congr_valid dom (fun y hy => ?_) hx
    simp only [sumOver, hB, hj, update_idem]
    by_cases h : B y
    · simp only [if_pos h]
      rw [List.sum_map_mul_right, hn n hnn y fun a ha _ => hy a, one_mul]
    · simp only [if_neg h]
      simp
  · intro A _
    rw [massOf_eq_sumOver, massOf_eq_sumOver, seeNodes_vars]
    apply sumOver_congr
    intro x
    by_cases h : x n.var = s
    · rw [hj, joint_rest hw.nodup hnn, ← h, update_eq_self]
    · simp [h]

theorem dseparated_congr {N : Type} {E F : List (N × N)} (h : ∀ e, e ∈ E ↔ e ∈ F) {Z : N → Prop} {v w : N} (hs : DSeparated F Z v w) :
    DSeparated E Z v w := by
  intro l h1 h2 h3 h4
  refine hs l h1 h2 h3 ⟨fun a b hab => ?_, fun a b c habc => ?_⟩
  · have := h4.1 a b hab
    unfold Link at this ⊢
    simpa only [h] using this
  · have := h4.2 a b c habc
    simp only [h] at this
    have hr : (EdgeRel E) = EdgeRel F := by
      funext x y
      exact propext (h (x, y))
    rw [hr] at this
    exact this

/-- C100.  If `ev` d-separates `v` from the variables of `ev'` in the graph without the arrows out of `v`, then given `ev`, setting `v` to `s`
and observing it have the same effect on `ev'`. -/
theorem massOf_act_observe {nodes : List (Node V S K)} (hw : NodesWF nodes) (hac : Acyclic (arrows nodes))
    (hdn : ∀ n ∈ nodes, (dom n.var).Nodup) (hn : Normalised dom nodes) {x₀ : V → S} (hx₀ : ∀ u ∈ nodes.map Node.var, x₀ u ∈ dom u)
    {ev ev' : List (V × S)} (hk : (ev.map Prod.fst).Nodup) (hev : GoodEvidence dom nodes ev) {v : V} (hv : v ∈ nodes.map Node.var)
    (hvZ : v ∉ ev.map Prod.fst) {s : S} (hs : s ∈ dom v)
    (hsep : ∀ w ∈ ev'.map Prod.fst, DSeparated (cutOut (arrows nodes) v) (· ∈ ev.map Prod.fst) v w) :
    massOf dom nodes x₀ (fun x => Agrees (ev ++ ev') x ∧ x v = s) *
      massWith dom (nodes.map Node.var) (truncated nodes v fun t => if t = s then 1 else 0) x₀ (Agrees ev) =
    massOf dom nodes x₀ (fun x => Agrees ev x ∧ x v = s) *
      massWith dom (nodes.map Node.var) (truncated nodes v fun t => if t = s then 1 else 0) x₀ (Agrees (ev ++ ev')) := by
  obtain ⟨dom', hcongr, hd, hx⟩ := exists_total_dom hdn hx₀
  have hn' : Normalised dom' nodes := fun n hn' x hx' => by
    rw [hcongr _ (List.mem_map_of_mem hn')]
    exact hn n hn' x fun a ha hav => by
      rw [← hcongr a (hw.args_sub n hn' a ha)]; exact hx' a ha hav
  have hs' : s ∈ dom' v := by rw [hcongr v hv]; exact hs
  have hwc : ∀ (J : (V → S) → K) (A : (V → S) → Prop) [DecidablePred A],
      massWith dom (nodes.map Node.var) J x₀ A = massWith dom' (nodes.map Node.var) J x₀ A := by
    intro J A _
    unfold massWith
    rw [worlds_congr x₀ hcongr]
  simp only [hwc, ← massOf_dom_congr hcongr]
  have hvW : v ∉ ev'.map Prod.fst := by
    intro h
    refine hsep v h [v] (List.nodup_singleton v) rfl rfl ⟨?_, ?_⟩
    · intro a b hab
      have := hab.length_le
      simp at this
    · intro a b c hab
      have := hab.length_le
      simp at this
  have hB : ∀ l : List (V × S), v ∉ l.map Prod.fst → ∀ (x : V → S) t, Agrees l (update x v t) ↔ Agrees l x := by
    intro l hl x t
    unfold Agrees
    refine forall₂_congr fun p hp => ?_
    rw [update_of_ne]
    rintro rfl
    exact hl (List.mem_map_of_mem hp)
  obtain ⟨h1, h2⟩ := massOf_see hw hd hn' hx hv hs'
  rw [← h2, ← h2, ← h1 (Agrees ev) (hB ev hvZ), ← h1 (Agrees (ev ++ ev')) (hB _ (by
    rw [List.map_append, List.mem_append]
    exact fun h => h.elim hvZ hvW))]
  refine massOf_dsep (see_wf hw v s) ?_ (fun n _ => hd _) (see_normalised hn' hs') (fun u _ => hx u) hk ?_ ?_ hvZ ?_ s
  · exact acyclic_mono (fun e he => (List.mem_filter.1 ((mem_arrows_see e).1 he)).1) hac
  · intro p hp
    rw [seeNodes_vars, hcongr _ (hev p hp).1]
    exact hev p hp
  · rw [seeNodes_vars]
    exact hv
  · intro w hw'
    exact dseparated_congr mem_arrows_see (hsep w hw')

end

end Verif.BBN
