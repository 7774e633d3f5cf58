import Verif.BBN.Coherent
import Verif.BBN.PropsPolicy

/-!
# The front-door criterion (C153): graphs and probabilities

Specification: `FrontDoor`.  `massOf_frontdoor` is the formula for probabilities; the intermediate networks in its proof need not be in one piece.
-/

namespace Verif.BBN
open Function Graph

/-! ### Specification -/

/-- The front-door criterion for a cause `x`, a mediator `m` and an effect `y`: every way from `x` to `y` along arrows goes through `m`; without the
arrows out of `x` nothing connects `x` and `m`; without the arrows out of `m`, the cause `x` separates `m` from `y`. -/
structure FrontDoor {V : Type} [DecidableEq V] (E : List (V × V)) (x m y : V) : Prop where
  intercepts : ¬ Relation.ReflTransGen (fun a b => (a, b) ∈ E ∧ b ≠ m) x y
  unconfounded : DSeparated (cutOut E x) (fun _ => False) x m
  shielded : DSeparated (cutOut E m) (· = x) m y

/-! ### Graphs -/

section
variable {V : Type} [DecidableEq V] {E : List (V × V)} {x m y : V}

omit [DecidableEq V] in
theorem dseparated_ne {Z : V → Prop} (h : DSeparated E Z x y) : x ≠ y := by
  rintro rfl
  refine h [x] (List.nodup_singleton x) rfl rfl ⟨?_, ?_⟩
  · intro a b hab
    have := hab.length_le
    simp at this
  · intro a b c hab
    have := hab.length_le
    simp at this

theorem FrontDoor.ne_xm (h : FrontDoor E x m y) : x ≠ m := dseparated_ne h.unconfounded
theorem FrontDoor.ne_my (h : FrontDoor E x m y) : m ≠ y := dseparated_ne h.shielded
theorem FrontDoor.ne_xy (h : FrontDoor E x m y) : x ≠ y := by
  rintro rfl
  exact h.intercepts .refl

/-- The graph without the arrows into `v`. -/
def cutIn (E : List (V × V)) (v : V) : List (V × V) := E.filter fun e => e.2 ≠ v

theorem mem_cutIn {v a b : V} : (a, b) ∈ cutIn E v ↔ (a, b) ∈ E ∧ b ≠ v := by simp [cutIn]
theorem mem_cutOut {v a b : V} : (a, b) ∈ cutOut E v ↔ (a, b) ∈ E ∧ a ≠ v := by simp [cutOut]

/-- A directed path gives an active path. -/
theorem not_reach_of_dseparated (hac : Acyclic E) (h : DSeparated E (fun _ => False) x y) : ¬ Relation.ReflTransGen (EdgeRel E) x y := by
  intro hr
  obtain ⟨l, hl, hlast⟩ := List.exists_isChain_cons_of_relationReflTransGen hr
  have hact : Active E (fun _ => False) (x :: l) := by
    refine ⟨fun a b hab => ?_, fun a b c habc => ⟨fun hc => ?_, fun _ h => h⟩⟩
    · have := hl.infix hab
      simp only [List.isChain_cons_cons] at this
      exact Or.inl this.1
    · have := hl.infix habc
      simp only [List.isChain_cons_cons] at this
      exact (hac.not_both this.2.1 hc.2).elim
  obtain ⟨p, h1, h2, h3, h4⟩ := hact.path hac _ le_rfl
  refine h p h1 (by rw [h2]; rfl) ?_ h4
  rw [h3, List.getLast?_eq_some_getLast (by simp), hlast]

/-- The cause is no descendant of the mediator. -/
theorem FrontDoor.no_return (hac : Acyclic E) (h : FrontDoor E x m y) : ¬ Relation.ReflTransGen (EdgeRel E) m x := by
  intro hr
  have hac' : Acyclic (cutOut E x) := by
    intro v hv
    exact hac v (Relation.TransGen.mono (fun a b hab => (mem_cutOut.1 hab).1) _ _ hv)
  refine not_reach_of_dseparated hac' h.unconfounded.symm ?_
  clear h
  induction hr using Relation.ReflTransGen.head_induction_on with
  | refl => exact .refl
  | head hab hbx ih =>
    rename_i a b
    refine ih.head (mem_cutOut.2 ⟨hab, ?_⟩)
    rintro rfl
    exact hac _ (Relation.TransGen.head' hab hbx)

/-- Once the arrows into the cause are removed as well, nothing but arrows out of the mediator connects it with the effect. -/
theorem FrontDoor.second (h : FrontDoor E x m y) : DSeparated (cutOut (cutIn E x) m) (fun _ => False) m y := by
  intro l hn hh hl ha
  have hsub : ∀ a b, (a, b) ∈ cutOut (cutIn E x) m → (a, b) ∈ cutOut E m := fun a b hab =>
    mem_cutOut.2 ⟨(mem_cutIn.1 (mem_cutOut.1 hab).1).1, (mem_cutOut.1 hab).2⟩
  by_cases hx : x ∈ l
  · obtain ⟨l₁, l₂, rfl⟩ := List.append_of_mem hx
    match l₂, hl, ha with
    | [], hl, _ =>
      have : x = y := by simpa using hl
      exact h.ne_xy this
    | b :: l₃, hl, ha =>
      have ha' := ha.infix (m := x :: b :: l₃) ⟨l₁, [], by simp⟩
      have hxb : (x, b) ∈ cutOut (cutIn E x) m := by
        rcases ha'.1 x b ⟨[], l₃, rfl⟩ with h' | h'
        · exact h'
        · exact absurd rfl (mem_cutIn.1 (mem_cutOut.1 h').1).2
      rcases ha'.forward hxb with hr | ⟨z, hz, _⟩
      · have hlast : (b :: l₃).getLast (by simp) = y := by
          rw [List.getLast?_append_of_ne_nil _ (by simp), List.getLast?_cons_cons, List.getLast?_eq_some_getLast (by simp)] at hl
          exact Option.some.inj hl
        rw [hlast] at hr
        refine h.intercepts ?_
        have hr := hr.to_reflTransGen
        have key : ∀ u, Relation.ReflTransGen (EdgeRel (cutOut (cutIn E x) m)) u y →
            Relation.ReflTransGen (fun a b => (a, b) ∈ E ∧ b ≠ m) u y := by
          intro u hu
          induction hu using Relation.ReflTransGen.head_induction_on with
          | refl => exact .refl
          | head hab hby ih =>
            rename_i a b
            refine ih.head ⟨(mem_cutIn.1 (mem_cutOut.1 hab).1).1, ?_⟩
            rintro rfl
            rcases Relation.ReflTransGen.cases_head hby with h' | ⟨c, hc, _⟩
            · exact h.ne_my h'
            · exact (mem_cutOut.1 hc).2 rfl
        exact key x hr
      · exact hz
  · refine h.shielded l hn hh hl ⟨fun a b hab => ?_, fun a b c habc => ⟨fun hc => ?_, fun _ hb => ?_⟩⟩
    · rcases ha.1 a b hab with h' | h'
      · exact Or.inl (hsub _ _ h')
      · exact Or.inr (hsub _ _ h')
    · have hb : b ≠ x := by
        rintro rfl
        exact hx (habc.subset (by simp))
      have hin : ∀ d, (d, b) ∈ cutOut E m → (d, b) ∈ cutOut (cutIn E x) m := fun d hd =>
        mem_cutOut.2 ⟨mem_cutIn.2 ⟨(mem_cutOut.1 hd).1, hb⟩, (mem_cutOut.1 hd).2⟩
      obtain ⟨z, hz, _⟩ := (ha.2 a b c habc).1 ⟨hin a hc.1, hin c hc.2⟩
      exact hz.elim
    · exact hx (hb ▸ habc.subset (by simp))

end

/-! ### Probabilities -/

section
variable {V S K : Type} [LinearOrder V] [DecidableEq S] [Field K] [LinearOrder K] [IsStrictOrderedRing K] {dom : V → List S}

/-- A node without parents that is always in the state `s`. -/
def pointNode (v : V) (s : S) : Node V S K := ⟨⟨[v], fun xs => if xs = [s] then 1 else 0⟩, v⟩

/-- The network after setting `v` to `s`. -/
def doNodes (nodes : List (Node V S K)) (v : V) (s : S) : List (Node V S K) := nodes.map fun n => if n.var = v then pointNode v s else n

omit [LinearOrder K] [IsStrictOrderedRing K] in
theorem doNodes_vars (nodes : List (Node V S K)) (v : V) (s : S) : (doNodes nodes v s).map Node.var = nodes.map Node.var := replace_vars rfl

omit [LinearOrder K] [IsStrictOrderedRing K] in
theorem mem_doNodes {nodes : List (Node V S K)} {v : V} {s : S} {n : Node V S K} (h : n ∈ doNodes nodes v s) :
    n = pointNode v s ∧ v ∈ nodes.map Node.var ∨ n ∈ nodes ∧ n.var ≠ v := by
  obtain ⟨k, hk, rfl⟩ := List.mem_map.1 h
  by_cases hv : k.var = v
  · exact Or.inl ⟨if_pos hv, hv ▸ List.mem_map_of_mem hk⟩
  · rw [if_neg hv]
    exact Or.inr ⟨hk, hv⟩

omit [LinearOrder K] [IsStrictOrderedRing K] in
theorem doNodes_wf {nodes : List (Node V S K)} (h : NodesWF nodes) (v : V) (s : S) : NodesWF (doNodes nodes v s) where
  nodup := by rw [doNodes_vars]; exact h.nodup
  var_mem := by
    intro n hn
    rcases mem_doNodes hn with ⟨rfl, _⟩ | ⟨hn, _⟩
    · simp [pointNode]
    · exact h.var_mem n hn
  args_nodup := by
    intro n hn
    rcases mem_doNodes hn with ⟨rfl, _⟩ | ⟨hn, _⟩
    · simp [pointNode]
    · exact h.args_nodup n hn
  args_sub := by
    intro n hn a ha
    rw [doNodes_vars]
    rcases mem_doNodes hn with ⟨rfl, hv⟩ | ⟨hn, _⟩
    · have : a = v := by simpa [pointNode] using ha
      exact this ▸ hv
    · exact h.args_sub n hn a ha

omit [LinearOrder K] [IsStrictOrderedRing K] in
theorem mem_arrows_do {nodes : List (Node V S K)} {v : V} {s : S} (e : V × V) : e ∈ arrows (doNodes nodes v s) ↔ e ∈ cutIn (arrows nodes) v := by
  obtain ⟨a, b⟩ := e
  rw [mem_cutIn, link_arrows, link_arrows]
  constructor
  · rintro ⟨n, hn, rfl, ha, hne⟩
    rcases mem_doNodes hn with ⟨rfl, _⟩ | ⟨hn, hv⟩
    · exact absurd (by simpa [pointNode] using ha) hne
    · exact ⟨⟨n, hn, rfl, ha, hne⟩, hv⟩
  · rintro ⟨⟨n, hn, rfl, ha, hne⟩, hv⟩
    exact ⟨n, List.mem_map.2 ⟨n, hn, if_neg hv⟩, rfl, ha, hne⟩

omit [LinearOrder K] [IsStrictOrderedRing K] in
theorem doNodes_acyclic {nodes : List (Node V S K)} (h : Acyclic (arrows nodes)) (v : V) (s : S) : Acyclic (arrows (doNodes nodes v s)) :=
  acyclic_mono (fun e he => (List.mem_filter.1 ((mem_arrows_do e).1 he)).1) h

theorem doNodes_normalised {nodes : List (Node V S K)} (hd : ∀ u, (dom u).Nodup) (h : Normalised dom nodes) {v : V} {s : S} (hs : s ∈ dom v) :
    Normalised dom (doNodes nodes v s) := by
  intro n hn x hx
  rcases mem_doNodes hn with ⟨rfl, hv⟩ | ⟨hn, _⟩
  · simp only [pointNode, List.map_cons, List.map_nil, update_self, List.cons.injEq, and_true]
    rw [← sum_finset_list (hd v), Finset.sum_ite_eq', if_pos (List.mem_toFinset.2 hs)]
  · exact h n hn x hx

theorem doNodes_nonneg {nodes : List (Node V S K)} (h : NonNeg dom nodes) (v : V) (s : S) : NonNeg dom (doNodes nodes v s) := by
  intro n hn x hx
  rcases mem_doNodes hn with ⟨rfl, hv⟩ | ⟨hn, _⟩
  · simp only [pointNode]
    split
    · exact zero_le_one
    · exact le_rfl
  · exact h n hn x hx

omit [LinearOrder K] [IsStrictOrderedRing K] in
theorem massOf_doNodes {nodes : List (Node V S K)} (hw : NodesWF nodes) {v : V} (hv : v ∈ nodes.map Node.var) (s : S) (x₀ : V → S)
    (A : (V → S) → Prop) [DecidablePred A] : massOf dom (doNodes nodes v s) x₀ A =
      massWith dom (nodes.map Node.var) (truncated nodes v fun t => if t = s then 1 else 0) x₀ A := by
  unfold massOf massWith
  rw [doNodes_vars]
  congr 1
  apply List.map_congr_left
  intro x _
  obtain ⟨n, hn, rfl⟩ := List.mem_map.1 hv
  have hm : (pointNode n.var s : Node V S K) ∈ doNodes nodes n.var s := List.mem_map.2 ⟨n, hn, if_pos rfl⟩
  rw [joint_rest (doNodes_wf hw n.var s).nodup hm]
  unfold truncated
  congr 1
  · simp [pointNode]
  · unfold restOf doNodes
    rw [List.filter_map, List.map_map]
    have : nodes.filter ((fun k : Node V S K => decide (k.var ≠ (pointNode n.var s : Node V S K).var)) ∘ fun k => if k.var = n.var then pointNode n.var s else k) =
        nodes.filter fun k => decide (k.var ≠ n.var) := by
      apply List.filter_congr
      intro k _
      by_cases hk : k.var = n.var
      · simp [hk, pointNode]
      · simp [hk, pointNode]
    rw [this]
    congr 1
    apply List.map_congr_left
    intro k hk
    have hk := of_decide_eq_true (List.mem_filter.1 hk).2
    simp only [comp_apply, if_neg hk]

omit [LinearOrder K] [IsStrictOrderedRing K] in
theorem doNodes_comm (nodes : List (Node V S K)) {v w : V} (hvw : v ≠ w) (s t : S) :
    doNodes (doNodes nodes v s) w t = doNodes (doNodes nodes w t) v s := by
  unfold doNodes
  rw [List.map_map, List.map_map]
  apply List.map_congr_left
  intro n _
  simp only [comp_apply]
  by_cases h1 : n.var = v
  · have h2 : n.var ≠ w := h1 ▸ hvw
    rw [if_pos h1, if_neg h2, if_pos h1, if_neg (show ¬ (pointNode v s : Node V S K).var = w from hvw)]
  · by_cases h2 : n.var = w
    · rw [if_neg h1, if_pos h2, if_neg (show ¬ (pointNode w t : Node V S K).var = v from hvw.symm)]
    · rw [if_neg h1, if_neg h2, if_neg h1]

variable {nodes : List (Node V S K)} (hw : NodesWF nodes) (hac : Acyclic (arrows nodes)) (hd : ∀ u, (dom u).Nodup) (hn : Normalised dom nodes)
  {x₀ : V → S} (hx : Valid dom x₀)
include hw hac hd hn hx

theorem massOf_nil : massOf dom nodes x₀ (Agrees []) = 1 := by
  rw [← massOf_total hw hac hn hx]
  exact massOf_congr fun x => by simp [Agrees]

/-- Acting like observing, for one variable. -/
theorem do_observe {v : V} (hv : v ∈ nodes.map Node.var) {s : S} (hs : s ∈ dom v) {ev : List (V × S)} (hk : (ev.map Prod.fst).Nodup)
    (hev : GoodEvidence dom nodes ev) (hvev : v ∉ ev.map Prod.fst) {y : V} (hsep : DSeparated (cutOut (arrows nodes) v) (· ∈ ev.map Prod.fst) v y) (t : S) :
    massOf dom nodes x₀ (fun x => (Agrees ev x ∧ x y = t) ∧ x v = s) * massOf dom (doNodes nodes v s) x₀ (Agrees ev) =
      massOf dom nodes x₀ (fun x => Agrees ev x ∧ x v = s) * massOf dom (doNodes nodes v s) x₀ (fun x => Agrees ev x ∧ x y = t) := by
  have := massOf_act_observe (ev' := [(y, t)]) hw hac (fun n _ => hd _) hn (fun u _ => hx u) hk hev hv hvev hs (by
    intro w hw'
    have : w = y := by simpa using hw'
    exact this ▸ hsep)
  rw [← massOf_doNodes hw hv, ← massOf_doNodes hw hv, massOf_snoc] at this
  rw [← this]
  congr 1
  exact massOf_congr fun x => by rw [agrees_snoc]

/-- An intervention without an effect on `y`. -/
theorem do_ineffective {v : V} (hv : v ∈ nodes.map Node.var) {s : S} (hs : s ∈ dom v) {y : V}
    (hsep : ¬ Relation.ReflTransGen (EdgeRel (arrows nodes)) v y) (t : S) :
    massOf dom (doNodes nodes v s) x₀ (fun x => x y = t) = massOf dom nodes x₀ (fun x => x y = t) := by
  obtain ⟨m, hm, hmv⟩ := List.mem_map.1 hv
  have := massOf_policy (nodes' := doNodes nodes v s) hw hac hn (doNodes_wf hw v s) (doNodes_acyclic hac v s) (doNodes_normalised hd hn hs)
    (fun n _ => hd _) hm hmv (m' := pointNode v s) rfl (by
      intro a ha
      have : a = v := by simpa [pointNode] using ha
      rw [this, ← hmv]
      exact hw.var_mem m hm) rfl (fun u _ => hx u) (ev := []) List.nodup_nil (by intro p hp; simp at hp) (y := y) (by simp)
    (NoEffect.of_nondescendants hsep (by simp)) t
  rw [massOf_nil hw hac hd hn hx, massOf_nil (doNodes_wf hw v s) (doNodes_acyclic hac v s) hd (doNodes_normalised hd hn hs) hx,
    mul_one, mul_one] at this
  have e : ∀ l : List (Node V S K), massOf dom l x₀ (fun x => Agrees [] x ∧ x y = t) = massOf dom l x₀ (fun x => x y = t) :=
    fun l => massOf_congr fun x => by simp [Agrees]
  rw [e, e] at this
  exact this.symm

/-- The front-door formula for probabilities. -/
theorem massOf_frontdoor (hnn : NonNeg dom nodes) {x m y : V} (hfd : FrontDoor (arrows nodes) x m y) (hxv : x ∈ nodes.map Node.var)
    (hmv : m ∈ nodes.map Node.var) {s : S} (hs : s ∈ dom x)
    (hpos : 0 < massOf dom nodes x₀ fun z => z x = s)
    (hpos' : ∀ s' ∈ dom x, ∀ μ ∈ dom m, 0 < massOf dom nodes x₀ (fun z => z x = s') → 0 < massOf dom nodes x₀ (fun z => z x = s ∧ z m = μ) →
      0 < massOf dom nodes x₀ (fun z => z x = s' ∧ z m = μ)) (t : S) :
    massOf dom (doNodes nodes x s) x₀ (fun z => z y = t) =
      ((dom m).map fun μ => massOf dom nodes x₀ (fun z => z x = s ∧ z m = μ) / massOf dom nodes x₀ (fun z => z x = s) *
        ((dom x).map fun s' => massOf dom nodes x₀ (fun z => z x = s') *
          (massOf dom nodes x₀ (fun z => (z x = s' ∧ z m = μ) ∧ z y = t) / massOf dom nodes x₀ (fun z => z x = s' ∧ z m = μ))).sum).sum := by
  have hwx := doNodes_wf hw x s
  have hacx := doNodes_acyclic hac x s
  have hnx := doNodes_normalised (v := x) hd hn hs
  rw [← massOf_split hd hwx (fun z => z y = t) (v := m) (by rw [doNodes_vars]; exact hmv) x₀]
  congr 1
  apply List.map_congr_left
  intro μ hμ
  have hwm := doNodes_wf hw m μ
  have hacm := doNodes_acyclic hac m μ
  have hnm := doNodes_normalised (v := m) hd hn hμ
  -- acting on the cause and observing it have the same effect on the mediator
  have hA : massOf dom (doNodes nodes x s) x₀ (fun z => z m = μ) =
      massOf dom nodes x₀ (fun z => z x = s ∧ z m = μ) / massOf dom nodes x₀ (fun z => z x = s) := by
    have := do_observe hw hac hd hn hx hxv hs (ev := []) List.nodup_nil (by intro p hp; simp at hp) (by simp) (y := m)
      (by simpa using hfd.unconfounded) μ
    rw [massOf_nil hwx hacx hd hnx hx, mul_one] at this
    rw [eq_div_iff hpos.ne', mul_comm]
    calc _ = massOf dom nodes x₀ (fun z => Agrees [] z ∧ z x = s) * massOf dom (doNodes nodes x s) x₀ (fun z => Agrees [] z ∧ z m = μ) := by
            congr 1 <;> exact massOf_congr fun z => by simp [Agrees]
      _ = _ := by
            rw [← this]
            exact massOf_congr fun z => by simp [Agrees, and_comm]
  -- then, observing the mediator and acting on it have the same effect on the target
  have hB : massOf dom (doNodes nodes x s) x₀ (fun z => z y = t ∧ z m = μ) =
      massOf dom (doNodes nodes x s) x₀ (fun z => z m = μ) * massOf dom (doNodes (doNodes nodes x s) m μ) x₀ (fun z => z y = t) := by
    have := do_observe hwx hacx hd hnx hx (v := m) (by rw [doNodes_vars]; exact hmv) hμ (ev := []) List.nodup_nil
      (by intro p hp; simp at hp) (by simp) (y := y) (by
        refine dseparated_congr (F := cutOut (cutIn (arrows nodes) x) m) ?_ (by simpa using hfd.second)
        rintro ⟨a, b⟩
        rw [mem_cutOut, mem_cutOut, mem_arrows_do]) t
    rw [massOf_nil (doNodes_wf hwx m μ) (doNodes_acyclic hacx m μ) hd (doNodes_normalised hd hnx hμ) hx, mul_one] at this
    calc _ = massOf dom (doNodes nodes x s) x₀ (fun z => (Agrees [] z ∧ z y = t) ∧ z m = μ) := massOf_congr fun z => by simp [Agrees]
      _ = _ := this
      _ = _ := by congr 1 <;> exact massOf_congr fun z => by simp [Agrees]
  rw [hB, hA]
  by_cases h0 : massOf dom nodes x₀ (fun z => z x = s ∧ z m = μ) = 0
  · rw [h0, zero_div, zero_mul, zero_mul]
  have hpm : 0 < massOf dom nodes x₀ (fun z => z x = s ∧ z m = μ) := lt_of_le_of_ne (massOf_nonneg hnn hx _) (Ne.symm h0)
  congr 1
  -- with the mediator set, setting the cause has no effect on the target
  have hC : massOf dom (doNodes (doNodes nodes x s) m μ) x₀ (fun z => z y = t) = massOf dom (doNodes nodes m μ) x₀ (fun z => z y = t) := by
    rw [doNodes_comm nodes hfd.ne_xm]
    refine do_ineffective hwm hacm hd hnm hx (by rw [doNodes_vars]; exact hxv) hs ?_ t
    intro hr
    refine hfd.intercepts (Relation.ReflTransGen.mono (fun a b hab => ?_) _ _ hr)
    exact mem_cutIn.1 ((mem_arrows_do _).1 hab)
  rw [hC, ← massOf_split hd hwm (fun z => z y = t) (v := x) (by rw [doNodes_vars]; exact hxv) x₀]
  congr 1
  apply List.map_congr_left
  intro s' hs'
  -- adjustment for the cause
  have hE : massOf dom (doNodes nodes m μ) x₀ (fun z => z x = s') = massOf dom nodes x₀ (fun z => z x = s') :=
    do_ineffective hw hac hd hn hx hmv hμ (hfd.no_return hac) s'
  by_cases h1 : massOf dom nodes x₀ (fun z => z x = s') = 0
  · rw [h1, zero_mul]
    refine le_antisymm ?_ (massOf_nonneg (doNodes_nonneg hnn m μ) hx _)
    rw [← h1, ← hE]
    exact massOf_mono (doNodes_nonneg hnn m μ) hx fun z h => h.2
  have hp := hpos' s' hs' μ hμ (lt_of_le_of_ne (massOf_nonneg hnn hx _) (Ne.symm h1)) hpm
  have hD := do_observe hw hac hd hn hx hmv hμ (ev := [(x, s')]) (by simp) (by
      intro p hp
      rw [List.mem_singleton.1 hp]
      exact ⟨hxv, hs'⟩) (by simpa using hfd.ne_xm.symm) (y := y) (by simpa using hfd.shielded) t
  have e1 : massOf dom (doNodes nodes m μ) x₀ (Agrees [(x, s')]) = massOf dom nodes x₀ (fun z => z x = s') := by
    rw [← hE]
    exact massOf_congr fun z => by simp [Agrees]
  have e2 : massOf dom nodes x₀ (fun z => Agrees [(x, s')] z ∧ z m = μ) = massOf dom nodes x₀ (fun z => z x = s' ∧ z m = μ) :=
    massOf_congr fun z => by simp [Agrees]
  have e3 : massOf dom (doNodes nodes m μ) x₀ (fun z => Agrees [(x, s')] z ∧ z y = t) = massOf dom (doNodes nodes m μ) x₀ (fun z => z y = t ∧ z x = s') :=
    massOf_congr fun z => by simp [Agrees, and_comm]
  have e4 : massOf dom nodes x₀ (fun z => (Agrees [(x, s')] z ∧ z y = t) ∧ z m = μ) = massOf dom nodes x₀ (fun z => (z x = s' ∧ z m = μ) ∧ z y = t) :=
    massOf_congr fun z => by
      simp only [Agrees, List.mem_singleton, forall_eq]
      tauto
  rw [e1, e2, e3, e4] at hD
  rw [← mul_div_assoc, eq_div_iff hp.ne', mul_comm, ← hD, mul_comm]

end

end Verif.BBN
