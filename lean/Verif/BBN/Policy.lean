import Verif.BBN.PropsAct

/-!
# C102: interventions without effect

The graph with a policy node: one more node (`none`) with a single arrow into `v`; it stands for the choice of how `v` gets its value.
If the evidence d-separates it from `y`, changing the table of `v` does not change what is reported for `y`.
-/

namespace Verif.BBN
open Function Graph

/-! ### Specification -/

/-- The graph with a policy node for `v`. -/
def policyGraph {V : Type} (E : List (V × V)) (v : V) : List (Option V × Option V) :=
  (none, some v) :: E.map fun e => (some e.1, some e.2)

/-- In the graph `E` the variables `zs` d-separate the choice of the table of `v` from `y`. -/
def NoEffect {V : Type} (E : List (V × V)) (zs : List V) (v y : V) : Prop :=
  DSeparated (policyGraph E v) (fun u => ∃ z ∈ zs, u = some z) none (some y)

/-! ### Graphs -/

section
variable {V : Type} {E : List (V × V)} {v y : V} {zs : List V}

theorem mem_policy {a b : V} : (some a, some b) ∈ policyGraph E v ↔ (a, b) ∈ E := by
  unfold policyGraph
  simp only [List.mem_cons, Prod.mk.injEq, reduceCtorEq, false_and, false_or, List.mem_map, Option.some.injEq]
  constructor
  · rintro ⟨⟨x, z⟩, h, rfl, rfl⟩
    exact h
  · exact fun h => ⟨(a, b), h, rfl, rfl⟩

theorem mem_policy_none {b : Option V} : (none, b) ∈ policyGraph E v ↔ b = some v := by
  unfold policyGraph
  simp

theorem not_mem_policy_none {a : Option V} : (a, none) ∉ policyGraph E v := by
  unfold policyGraph
  simp

theorem policy_reach {a b : Option V} (h : Relation.TransGen (EdgeRel (policyGraph E v)) a b) {x : V} (hx : a = some x) :
    ∃ z, b = some z ∧ Relation.TransGen (EdgeRel E) x z := by
  subst hx
  induction h with
  | @single c h =>
    cases c with
    | none => exact absurd h not_mem_policy_none
    | some z => exact ⟨z, rfl, .single (mem_policy.1 h)⟩
  | @tail c d _ h ih =>
    obtain ⟨z, rfl, hz⟩ := ih
    cases d with
    | none => exact absurd h not_mem_policy_none
    | some w => exact ⟨w, rfl, hz.tail (mem_policy.1 h)⟩

theorem policy_acyclic (h : Acyclic E) : Acyclic (policyGraph E v) := by
  intro a ha
  cases a with
  | none =>
    obtain ⟨c, -, hc⟩ := Relation.TransGen.tail'_iff.1 ha
    exact not_mem_policy_none hc
  | some x =>
    obtain ⟨z, hz, hr⟩ := policy_reach ha rfl
    cases hz
    exact h x hr

theorem policy_lift {a b : V} (h : Relation.ReflTransGen (EdgeRel E) a b) :
    Relation.ReflTransGen (EdgeRel (policyGraph E v)) (some a) (some b) := by
  induction h with
  | refl => exact .refl
  | tail _ h ih => exact ih.tail (mem_policy.2 h)

theorem ball_lift {u : V} {d : Bool} (h : Ball E (· ∈ zs) y u d) :
    Ball (policyGraph E v) (fun u => ∃ z ∈ zs, u = some z) (some y) (some u) d := by
  have hz : ∀ {u : V}, u ∉ zs → ¬ ∃ z ∈ zs, some u = some z := by
    rintro u hu ⟨z, hz, h⟩
    cases h
    exact hu hz
  induction h with
  | start => exact .start
  | up_up _ h1 h2 ih => exact ih.up_up (hz h1) (mem_policy.2 h2)
  | up_down _ h1 h2 ih => exact ih.up_down (hz h1) (mem_policy.2 h2)
  | down_down _ h1 h2 ih => exact ih.down_down (hz h1) (mem_policy.2 h2)
  | down_up _ h1 h2 ih =>
    obtain ⟨z, hz, hr⟩ := h1
    exact ih.down_up ⟨some z, ⟨z, hz, rfl⟩, policy_lift hr⟩ (mem_policy.2 h2)

/-- If the policy node is separated, no variable of the family of `v` is reached from `y`, unless it is observed or `v` is no
ancestor of `y` or of the evidence. -/
theorem NoEffect.family (h : NoEffect E zs v y) (hac : Acyclic E) (hv : ∃ w, (w = y ∨ w ∈ zs) ∧ Relation.ReflTransGen (EdgeRel E) v w) {m : V}
    (hm : m = v ∨ (m, v) ∈ E) (hmz : m ∉ zs) (d : Bool) : ¬ Ball E (· ∈ zs) y m d := by
  have hnot := fun d => (DSeparated.symm h).not_ball (policy_acyclic hac) d
  have hA : Ball E (· ∈ zs) y v true → v ∉ zs → False := by
    intro hb hvz
    refine hnot true ((ball_lift hb).up_up ?_ (mem_policy_none.2 rfl))
    rintro ⟨z, hz, h⟩
    cases h
    exact hvz hz
  have hB : Ball E (· ∈ zs) y v false → (∃ z ∈ zs, Relation.ReflTransGen (EdgeRel E) v z) → False := by
    rintro hb ⟨z, hz, hr⟩
    exact hnot true ((ball_lift hb).down_up ⟨some z, ⟨z, hz, rfl⟩, policy_lift hr⟩ (mem_policy_none.2 rfl))
  have hup : v ∉ zs → Ball E (· ∈ zs) y v false → False := by
    intro hvz hb
    by_cases hz : ∃ z ∈ zs, Relation.ReflTransGen (EdgeRel E) v z
    · exact hB hb hz
    · obtain ⟨w, hw | hw, hr⟩ := hv
      · subst hw
        refine hA ?_ hvz
        clear hnot hA hB h hm hb
        have hz' : ∀ z, Relation.ReflTransGen (EdgeRel E) v z → z ∉ zs := fun z h1 h2 => hz ⟨z, h2, h1⟩
        clear hz hvz
        induction hr using Relation.ReflTransGen.head_induction_on with
        | refl => exact .start
        | head hac _ ih => exact Ball.up_up (ih fun z h => hz' z (h.head hac)) (hz' _ (.single hac)) hac
      · exact hz ⟨w, hw, hr⟩
  intro hb
  rcases hm with rfl | hm
  · cases d with
    | true => exact hA hb hmz
    | false => exact hup hmz hb
  · have hc : Ball E (· ∈ zs) y v false := by
      cases d with
      | true => exact hb.up_down hmz hm
      | false => exact hb.down_down hmz hm
    by_cases hvz : v ∈ zs
    · exact hB hc ⟨v, hvz, .refl⟩
    · exact hup hvz hc

theorem infix_map_some {l m : List V} (h : l <:+: m) : l.map some <:+: m.map (some : V → Option V) := h.map some

/-- A walk without the policy node. -/
theorem active_of_policy {l : List V} (h : Active (policyGraph E v) (fun u => ∃ z ∈ zs, u = some z) (l.map some)) :
    Active E (· ∈ zs) l := by
  refine ⟨fun a b hab => ?_, fun a b c habc => ?_⟩
  · rcases h.1 (some a) (some b) (by simpa using hab.map some) with h | h
    · exact Or.inl (mem_policy.1 h)
    · exact Or.inr (mem_policy.1 h)
  · have := h.2 (some a) (some b) (some c) (by simpa using habc.map some)
    rw [mem_policy, mem_policy] at this
    refine ⟨fun h' => ?_, fun h' hz => this.2 h' ⟨b, hz, rfl⟩⟩
    obtain ⟨z, ⟨w, hw, rfl⟩, hr⟩ := this.1 h'
    refine ⟨w, hw, ?_⟩
    rcases Relation.reflTransGen_iff_eq_or_transGen.1 hr with h | h
    · cases h
      exact .refl
    · obtain ⟨z, hz, hr⟩ := policy_reach h rfl
      cases hz
      exact hr.to_reflTransGen

/-- A path from the policy node goes to `v` and on through other variables. -/
theorem policy_path {l : List (Option V)} (hn : l.Nodup) (hh : l.head? = some none) (hl : l.getLast? = some (some y))
    (ha : Active (policyGraph E v) (fun u => ∃ z ∈ zs, u = some z) l) :
    ∃ m : List V, l = none :: some v :: m.map some ∧ (v :: m).getLast? = some y ∧ (v :: m).Nodup ∧ Active E (· ∈ zs) (v :: m) := by
  match l, hh, hl with
  | [a], hh, hl =>
    simp only [List.head?_cons, Option.some.injEq] at hh
    subst hh
    simp at hl
  | a :: b :: l, hh, hl =>
    simp only [List.head?_cons, Option.some.injEq] at hh
    subst hh
    have hb : b = some v := by
      rcases ha.1 none b ⟨[], l, rfl⟩ with h | h
      · exact mem_policy_none.1 h
      · exact absurd h not_mem_policy_none
    subst hb
    obtain ⟨m, rfl⟩ : ∃ m : List V, l = m.map some := by
      have hno : none ∉ l := fun h => (List.nodup_cons.1 hn).1 (List.mem_cons_of_mem _ h)
      clear hl ha hn
      induction l with
      | nil => exact ⟨[], rfl⟩
      | cons c l ih =>
        rw [List.mem_cons, not_or] at hno
        obtain ⟨m, rfl⟩ := ih hno.2
        cases c with
        | none => exact absurd rfl hno.1
        | some c => exact ⟨c :: m, rfl⟩
    have hn' : ((v :: m).map (some : V → Option V)).Nodup := (List.nodup_cons.1 hn).2
    refine ⟨m, rfl, ?_, List.Nodup.of_map _ hn', ?_⟩
    · have : ((v :: m).map (some : V → Option V)).getLast? = some (some y) := by
        rw [← hl, List.getLast?_cons_cons]
        rfl
      rw [List.getLast?_map] at this
      cases hq : (v :: m).getLast? with
      | none => rw [hq] at this; cases this
      | some q => rw [hq] at this; cases this; rfl
    · exact active_of_policy (v := v) (ha.infix ⟨[none], [], by simp⟩)

/-- If the evidence d-separates `v` from `y`, the table of `v` has no effect on `y`. -/
theorem NoEffect.of_dsep (h : DSeparated E (· ∈ zs) v y) : NoEffect E zs v y := by
  intro l hn hh hl ha
  obtain ⟨m, -, h1, h2, h3⟩ := policy_path hn hh hl ha
  exact h (v :: m) h2 rfl h1 h3

/-- If neither `y` nor the evidence is a descendant of `v`, the table of `v` has no effect on `y`. -/
theorem NoEffect.of_nondescendants (hy : ¬ Relation.ReflTransGen (EdgeRel E) v y) (hz : ∀ z ∈ zs, ¬ Relation.ReflTransGen (EdgeRel E) v z) :
    NoEffect E zs v y := by
  intro l hn hh hl ha
  obtain ⟨m, rfl, h1, h2, h3⟩ := policy_path hn hh hl ha
  match m, h1 with
  | [], h1 =>
    have : v = y := by simpa using h1
    exact hy (this ▸ .refl)
  | b :: m, h1 =>
    by_cases hvb : (v, b) ∈ E
    · rcases h3.forward hvb with h | ⟨z, hz', hr⟩
      · have : (b :: m).getLast (by simp) = y := by
          rw [List.getLast?_cons_cons, List.getLast?_eq_some_getLast (by simp)] at h1
          exact Option.some.inj h1
        exact hy (this ▸ h.to_reflTransGen)
      · exact hz z hz' hr
    · have hbv : (b, v) ∈ E := (h3.1 v b ⟨[], m, rfl⟩).resolve_left hvb
      obtain ⟨z, ⟨w, hw, rfl⟩, hr⟩ := (ha.2 none (some v) (some b) ⟨[], m.map some, by simp⟩).1
        ⟨mem_policy_none.2 rfl, mem_policy.2 hbv⟩
      rcases Relation.reflTransGen_iff_eq_or_transGen.1 hr with h | h
      · cases h
        exact hz _ hw .refl
      · obtain ⟨z, hz', hr⟩ := policy_reach h rfl
        cases hz'
        exact hz _ hw hr.to_reflTransGen

end

/-! ### Probabilities -/

section
variable {V S K : Type} [LinearOrder V] [DecidableEq S] [Field K] [LinearOrder K] [IsStrictOrderedRing K] {dom : V → List S}

omit [DecidableEq S] [Field K] [LinearOrder K] [IsStrictOrderedRing K] in
theorem filter_replace {l : List (Node V S K)} {v : V} {n' : Node V S K} (p : Node V S K → Bool) (h : ∀ n ∈ l, n.var = v → p n = false)
    (h' : p n' = false) : (l.map fun n => if n.var = v then n' else n).filter p = l.filter p := by
  induction l with
  | nil => rfl
  | cons n l ih =>
    rw [List.map_cons, List.filter_cons, List.filter_cons, ih fun n hn => h n (List.mem_cons_of_mem _ hn)]
    by_cases hv : n.var = v
    · rw [if_pos hv, h', h n List.mem_cons_self hv]
      simp
    · rw [if_neg hv]

omit [DecidableEq S] [Field K] [LinearOrder K] [IsStrictOrderedRing K] in
theorem replace_vars {l : List (Node V S K)} {v : V} {n' : Node V S K} (h' : n'.var = v) :
    (l.map fun n => if n.var = v then n' else n).map Node.var = l.map Node.var := by
  rw [List.map_map]
  apply List.map_congr_left
  intro n _
  simp only [comp_def]
  by_cases hv : n.var = v
  · rw [if_pos hv, h', hv]
  · rw [if_neg hv]

omit [DecidableEq S] [Field K] [LinearOrder K] [IsStrictOrderedRing K] in
theorem filter_vars (l : List (Node V S K)) (P : V → Bool) : (l.filter fun n => P n.var).map Node.var = (l.map Node.var).filter P := by
  rw [List.filter_map]
  rfl

/-- The table of `v` is replaced by one with some of its parents only.  If the evidence separates the policy node of `v` from `y` (with all the parents), the conditional
probabilities of `y` are the same before and after. -/
theorem massOf_policy {nodes nodes' : List (Node V S K)} (hw : NodesWF nodes) (hac : Acyclic (arrows nodes)) (hn : Normalised dom nodes)
    (hw' : NodesWF nodes') (hac' : Acyclic (arrows nodes')) (hn' : Normalised dom nodes')
    (hdn : ∀ n ∈ nodes, (dom n.var).Nodup) {v : V} {m m' : Node V S K} (hm : m ∈ nodes) (hmv : m.var = v) (hm' : m'.var = v)
    (hsub : ∀ a ∈ m'.args, a ∈ m.args) (hrep : nodes' = nodes.map fun n => if n.var = v then m' else n)
    {x₀ : V → S} (hx₀ : ∀ u ∈ nodes.map Node.var, x₀ u ∈ dom u)
    {ev : List (V × S)} (hk : (ev.map Prod.fst).Nodup) (hev : GoodEvidence dom nodes ev) {y : V}
    (hyZ : y ∉ ev.map Prod.fst) (hsep : NoEffect (arrows nodes) (ev.map Prod.fst) v y) (s : S) :
    massOf dom nodes x₀ (fun x => Agrees ev x ∧ x y = s) * massOf dom nodes' x₀ (Agrees ev) =
      massOf dom nodes' x₀ (fun x => Agrees ev x ∧ x y = s) * massOf dom nodes x₀ (Agrees ev) := by
  classical
  obtain ⟨dom', hcongr, hd, hx⟩ := exists_total_dom hdn hx₀
  have hvars : nodes'.map Node.var = nodes.map Node.var := by rw [hrep, replace_vars hm']
  have hcongr' : ∀ u ∈ nodes'.map Node.var, dom' u = dom u := by rw [hvars]; exact hcongr
  have norm : ∀ l : List (Node V S K), NodesWF l → Normalised dom l → (∀ u ∈ l.map Node.var, dom' u = dom u) → Normalised dom' l := by
    intro l hw hn hc n hn' x hx'
    rw [hc _ (List.mem_map_of_mem hn')]
    exact hn n hn' x fun a ha hav => by
      rw [← hc a (hw.args_sub n hn' a ha)]; exact hx' a ha hav
  have hn1 := norm nodes hw hn hcongr
  have hn1' := norm nodes' hw' hn' hcongr'
  simp only [← massOf_dom_congr hcongr, ← massOf_dom_congr hcongr']
  have hev' : ∀ p ∈ ev, p.2 ∈ dom' p.1 := fun p hp => by
    rw [hcongr _ (hev p hp).1]
    exact (hev p hp).2
  set Z : V → Prop := (· ∈ ev.map Prod.fst) with hZ
  set P : V → Prop := fun u => ∃ w, (w = y ∨ Z w) ∧ Relation.ReflTransGen (EdgeRel (arrows nodes)) u w with hP
  set C : V → Prop := fun u => ¬ Z u ∧ ∃ d, Ball (arrows nodes) Z y u d with hC
  have hPcl : ∀ n ∈ nodes, P n.var → ∀ a ∈ n.args, P a := by
    rintro n hn ⟨w, hw, hr⟩ a ha
    by_cases h : a = n.var
    · exact ⟨w, hw, h ▸ hr⟩
    · exact ⟨w, hw, hr.head (link_arrows.2 ⟨n, hn, rfl, ha, h⟩)⟩
  have hPcl' : ∀ n ∈ nodes', P n.var → ∀ a ∈ n.args, P a := by
    intro n hn hPn a ha
    rw [hrep] at hn
    obtain ⟨n₀, hn₀, rfl⟩ := List.mem_map.1 hn
    by_cases h : n₀.var = v
    · rw [if_pos h] at hPn ha
      rw [hm', ← hmv] at hPn
      exact hPcl m hm hPn a (hsub a ha)
    · rw [if_neg h] at hPn ha
      exact hPcl n₀ hn₀ hPn a ha
  have hPself : ∀ u, (u = y ∨ Z u) → P u := fun u hu => ⟨u, hu, .refl⟩
  have hz : ∃ z, Valid dom' z ∧ Agrees ev z := by
    refine ⟨fun u => (ev.lookup u).getD (x₀ u), ?_, ?_⟩
    · intro u
      dsimp only
      cases hl : ev.lookup u with
      | none => exact hx u
      | some t => exact hev' _ (lookup_mem hl)
    · intro p hp
      dsimp only
      rw [lookup_of_mem_nodup hk hp]
      rfl
  obtain ⟨z, hz1, hz2⟩ := hz
  have hCy : C y := ⟨hyZ, true, .start⟩
  -- the families
  have hmC : P v → ∀ a ∈ m.args, ¬ C a := by
    rintro hPv a ha ⟨h1, d, h2⟩
    refine hsep.family hac hPv ?_ h1 d h2
    by_cases h : a = v
    · exact Or.inl h
    · exact Or.inr (link_arrows.2 ⟨m, hm, hmv, ha, h⟩)
  have huniq : ∀ n ∈ nodes, n.var = v → n = m := fun n hn h =>
    List.inj_on_of_nodup_map hw.nodup hn hm (h.trans hmv.symm)
  have hfam : ∀ n ∈ nodes.filter fun n => P n.var, ∀ b ∈ n.args, C b → ∀ a ∈ n.args, C a ∨ Z a := by
    intro n hn b hb hc a ha
    obtain ⟨hn1, hn2⟩ := List.mem_filter.1 hn
    obtain ⟨w, hw2, hr⟩ := of_decide_eq_true hn2
    rcases ball_family (W := fun _ => False) (fun _ h => h.elim) hn1 ⟨w, hw2.elim Or.inl fun h => Or.inr (Or.inr h), hr⟩ hb ha hc.1 hc.2 with h | h
    · exact Or.inr h
    · by_cases hza : Z a
      · exact Or.inr hza
      · exact Or.inl ⟨hza, h⟩
  have hfam' : ∀ n ∈ nodes'.filter fun n => P n.var, ∀ b ∈ n.args, C b → ∀ a ∈ n.args, C a ∨ Z a := by
    intro n hn b hb hc a ha
    obtain ⟨hn1, hn2⟩ := List.mem_filter.1 hn
    rw [hrep] at hn1
    obtain ⟨n₀, hn₀, rfl⟩ := List.mem_map.1 hn1
    by_cases h : n₀.var = v
    · rw [if_pos h] at hb hn2
      have hn2 := of_decide_eq_true hn2
      rw [hm'] at hn2
      exact absurd hc (hmC hn2 b (hsub b hb))
    · rw [if_neg h] at hb ha hn2
      exact hfam n₀ (List.mem_filter.2 ⟨hn₀, hn2⟩) b hb hc a ha
  have key : ∀ l : List (Node V S K), NodesWF l → Acyclic (arrows l) → Normalised dom' l → l.map Node.var = nodes.map Node.var →
      (∀ n ∈ l, P n.var → ∀ a ∈ n.args, P a) → (∀ n ∈ l.filter fun n => P n.var, ∀ b ∈ n.args, C b → ∀ a ∈ n.args, C a ∨ Z a) →
      ∀ (A : (V → S) → Prop) [DecidablePred A], (∀ x x' : V → S, x y = x' y → (A x ↔ A x')) →
      massOf dom' l x₀ (fun x => Agrees ev x ∧ A x) =
      sumOver dom' (((l.filter fun n => P n.var).map Node.var).filter fun u => C u)
        (fun x => if A x then joint ((l.filter fun n => P n.var).filter fun n => ∃ m ∈ n.args, C m) x else 0)
        (ovr (keyOf (((l.filter fun n => P n.var).map Node.var).filter fun u => Z u) z) x₀) *
      sumOver dom' (((l.filter fun n => P n.var).map Node.var).filter fun u => ¬ C u ∧ ¬ Z u)
        (fun x => if True then joint ((l.filter fun n => P n.var).filter fun n => ¬ ∃ m ∈ n.args, C m) x else 0)
        (ovr (keyOf (((l.filter fun n => P n.var).map Node.var).filter fun u => Z u) z) x₀) := by
    intro l hwl hacl hnl hvl hcl hfl A _ hA
    have hLnd : ((l.filter fun n => P n.var).map Node.var).Nodup := hwl.nodup.sublist (List.filter_sublist.map _)
    rw [massOf_congr (B := fun x => Agrees ev x ∧ A x ∧ True) fun x => by simp]
    rw [massOf_ancestral_aux hwl hacl hnl hx P hcl]
    · rw [massOf_separated hd hLnd C Z (fun u h => h.1) hfl (fun _ => Iff.rfl) ?_ hz1 hz2 x₀ A (fun _ => True) ?_ (fun _ _ _ => Iff.rfl)]
      · intro u hu
        obtain ⟨p, hp, rfl⟩ := List.mem_map.1 hu
        have hpv := (hev p hp).1
        rw [← hvl] at hpv
        obtain ⟨n, hn, hnv⟩ := List.mem_map.1 hpv
        exact List.mem_map.2 ⟨n, List.mem_filter.2 ⟨hn, decide_eq_true (hPself _ (Or.inr (hnv ▸ hu)))⟩, hnv⟩
      · exact fun x x' h => hA x x' (h y (Or.inl hCy))
    · intro x x' h
      have h1 : Agrees ev x ↔ Agrees ev x' := by
        unfold Agrees
        refine forall₂_congr fun p hp => ?_
        rw [h p.1 (hPself _ (Or.inr (List.mem_map_of_mem hp)))]
      rw [h1, hA x x' (h y (hPself y (Or.inl rfl)))]
  have hLvars : (nodes'.filter fun n => P n.var).map Node.var = (nodes.filter fun n => P n.var).map Node.var := by
    rw [filter_vars nodes' (fun u => decide (P u)), filter_vars nodes (fun u => decide (P u)), hvars]
  have hCnodes : ((nodes'.filter fun n => P n.var).filter fun n => ∃ m ∈ n.args, C m) =
      (nodes.filter fun n => P n.var).filter fun n => ∃ m ∈ n.args, C m := by
    rw [List.filter_filter, List.filter_filter, hrep]
    refine filter_replace _ (fun n hn hnv => ?_) ?_
    · by_cases hPv : P v
      · have : ¬ ∃ b ∈ n.args, C b := by
          rw [huniq n hn hnv]
          rintro ⟨b, hb, hc⟩
          exact hmC hPv b hb hc
        simp only [this, decide_false, Bool.false_and]
      · simp only [hnv, hPv, decide_false, Bool.and_false]
    · by_cases hPv : P v
      · have : ¬ ∃ b ∈ m'.args, C b := by
          rintro ⟨b, hb, hc⟩
          exact hmC hPv b (hsub b hb) hc
        simp only [this, decide_false, Bool.false_and]
      · simp only [hm', hPv, decide_false, Bool.and_false]
  have e1 : ∀ l : List (Node V S K), massOf dom' l x₀ (Agrees ev) = massOf dom' l x₀ (fun x => Agrees ev x ∧ True) := fun l => massOf_congr fun x => by simp
  rw [e1 nodes, e1 nodes', key nodes hw hac hn1 rfl hPcl hfam (fun x => x y = s) (fun x x' h => by rw [h]),
    key nodes hw hac hn1 rfl hPcl hfam (fun _ => True) (fun _ _ _ => Iff.rfl),
    key nodes' hw' hac' hn1' hvars hPcl' hfam' (fun x => x y = s) (fun x x' h => by rw [h]),
    key nodes' hw' hac' hn1' hvars hPcl' hfam' (fun _ => True) (fun _ _ _ => Iff.rfl), hLvars, hCnodes]
  ring

end

end Verif.BBN
