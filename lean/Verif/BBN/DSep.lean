import Verif.BBN.EngineProps
import Verif.Graph.DSep

/-!
# Queries respect d-separation (C99): probabilities
-/

namespace Verif.BBN

open Function Graph

section
variable {V S K : Type} [LinearOrder V] {nodes : List (Node V S K)} {Z W : V → Prop} {v : V}

theorem ball_up {E : List (V × V)} {u : V} (h : Relation.ReflTransGen (EdgeRel E) u v)
    (hz : ∀ z, Relation.ReflTransGen (EdgeRel E) u z → ¬ Z z) : Ball E Z v u true := by
  induction h using Relation.ReflTransGen.head_induction_on with
  | refl => exact .start
  | head hac _ ih =>
    refine Ball.up_up (ih fun z hz' => hz z (hz'.head hac)) (hz _ (Relation.ReflTransGen.single hac)) hac

theorem ball_down {E : List (V × V)} {u w : V} (h : Relation.ReflTransGen (EdgeRel E) u w)
    (hz : ∀ z, Relation.ReflTransGen (EdgeRel E) u z → ¬ Z z) (hb : ∃ d, Ball E Z v u d) : ∃ d, Ball E Z v w d := by
  induction h with
  | refl => exact hb
  | tail huc hcw ih =>
    obtain ⟨d, hd⟩ := ih
    cases d with
    | true => exact ⟨_, hd.up_down (hz _ huc) hcw⟩
    | false => exact ⟨_, hd.down_down (hz _ huc) hcw⟩

/-- The family of a node among the ancestors is reached as a whole or not at all, apart from `Z`. -/
theorem ball_family (hsep : ∀ w, W w → ∀ d, ¬ Ball (arrows nodes) Z v w d) {n : Node V S K} (hn : n ∈ nodes)
    (hP : ∃ y, (y = v ∨ W y ∨ Z y) ∧ Relation.ReflTransGen (EdgeRel (arrows nodes)) n.var y) {m a : V} (hm : m ∈ n.args)
    (ha : a ∈ n.args) (hmz : ¬ Z m) (hb : ∃ d, Ball (arrows nodes) Z v m d) : Z a ∨ ∃ d, Ball (arrows nodes) Z v a d := by
  by_cases haz : Z a
  · exact Or.inl haz
  right
  -- from the child to a parent
  have hpar : (∃ d, Ball (arrows nodes) Z v n.var d) → ¬ Z n.var → a ≠ n.var → ∃ d, Ball (arrows nodes) Z v a d := by
    rintro ⟨d, hd⟩ hcz hne
    have hedge : (a, n.var) ∈ arrows nodes := link_arrows.2 ⟨n, hn, rfl, ha, hne⟩
    cases d with
    | true => exact ⟨_, hd.up_up hcz hedge⟩
    | false =>
      by_cases hdz : ∃ z, Z z ∧ Relation.ReflTransGen (EdgeRel (arrows nodes)) n.var z
      · exact ⟨_, hd.down_up hdz hedge⟩
      · have hz : ∀ z, Relation.ReflTransGen (EdgeRel (arrows nodes)) n.var z → ¬ Z z := fun z h1 h2 => hdz ⟨z, h2, h1⟩
        obtain ⟨y, hy | hy | hy, hr⟩ := hP
        · subst hy
          exact ⟨_, (ball_up hr hz).up_up hcz hedge⟩
        · obtain ⟨d, hd'⟩ := ball_down hr hz ⟨_, hd⟩
          exact absurd hd' (hsep y hy d)
        · exact absurd hy (hz y hr)
  by_cases hmc : m = n.var
  · by_cases hac : a = n.var
    · rw [hac, ← hmc]
      exact hb
    · exact hpar (hmc ▸ hb) (hmc ▸ hmz) hac
  · have hedge : (m, n.var) ∈ arrows nodes := link_arrows.2 ⟨n, hn, rfl, hm, hmc⟩
    have hc : Ball (arrows nodes) Z v n.var false := by
      obtain ⟨d, hd⟩ := hb
      cases d with
      | true => exact hd.up_down hmz hedge
      | false => exact hd.down_down hmz hedge
    by_cases hac : a = n.var
    · rw [hac]
      exact ⟨_, hc⟩
    · by_cases hcz : Z n.var
      · exact ⟨_, hc.down_up ⟨_, hcz, Relation.ReflTransGen.refl⟩ (link_arrows.2 ⟨n, hn, rfl, ha, hac⟩)⟩
      · exact hpar ⟨_, hc⟩ hcz hac

end

section
variable {V S K : Type} [LinearOrder V] [DecidableEq S] [Field K] [LinearOrder K] [IsStrictOrderedRing K] {dom : V → List S}

theorem joint_dependsOn {L : List (Node V S K)} {P : V → Prop} (h : ∀ n ∈ L, ∀ a ∈ n.args, P a) : DependsOn (joint L) {u | P u} := by
  intro x y hxy
  unfold joint
  congr 1
  apply List.map_congr_left
  intro n hn
  congr 1
  apply List.map_congr_left
  intro a ha
  exact hxy a (h n hn a ha)

/-- If every family lies, apart from `Z`, inside or outside `C`, then given `Z` the probability of an event inside `C` and one outside
is a product. -/
theorem massOf_separated (hd : ∀ u, (dom u).Nodup) {L : List (Node V S K)} (hL : (L.map Node.var).Nodup) (C Z : V → Prop) [DecidablePred C]
    [DecidablePred Z] (hCZ : ∀ u, C u → ¬ Z u) (hfam : ∀ n ∈ L, ∀ m ∈ n.args, C m → ∀ a ∈ n.args, C a ∨ Z a)
    {ev : List (V × S)} (hev : ∀ u, Z u ↔ u ∈ ev.map Prod.fst) (hevL : ∀ u ∈ ev.map Prod.fst, u ∈ L.map Node.var) {z : V → S}
    (hz : Valid dom z) (hzev : Agrees ev z) (x₀ : V → S) (A B : (V → S) → Prop) [DecidablePred A] [DecidablePred B]
    (hA : ∀ x y : V → S, (∀ u, C u ∨ Z u → x u = y u) → (A x ↔ A y)) (hB : ∀ x y : V → S, (∀ u, ¬ C u → x u = y u) → (B x ↔ B y)) :
    massOf dom L x₀ (fun x => Agrees ev x ∧ A x ∧ B x) =
      sumOver dom ((L.map Node.var).filter fun u => C u)
        (fun x => if A x then joint (L.filter fun n => ∃ m ∈ n.args, C m) x else 0)
        (ovr (keyOf ((L.map Node.var).filter fun u => Z u) z) x₀) *
      sumOver dom ((L.map Node.var).filter fun u => ¬ C u ∧ ¬ Z u)
        (fun x => if B x then joint (L.filter fun n => ¬ ∃ m ∈ n.args, C m) x else 0)
        (ovr (keyOf ((L.map Node.var).filter fun u => Z u) z) x₀) := by
  set vs := L.map Node.var with hvs
  set CL := vs.filter fun u => C u with hCL
  set ZL := vs.filter fun u => Z u with hZL
  set RL := vs.filter fun u => ¬ C u ∧ ¬ Z u with hRL
  set F1 := fun x : V → S => if A x then joint (L.filter fun n => ∃ m ∈ n.args, C m) x else 0 with hF1
  set F2 := fun x : V → S => if B x then joint (L.filter fun n => ¬ ∃ m ∈ n.args, C m) x else 0 with hF2
  have hperm : vs.Perm (ZL ++ (CL ++ RL)) := by
    apply (List.perm_ext_iff_of_nodup hL ?_).2
    · intro u
      simp only [hZL, hCL, hRL, List.mem_append, List.mem_filter, decide_eq_true_eq]
      tauto
    · rw [List.nodup_append, List.nodup_append]
      refine ⟨hL.filter _, ⟨hL.filter _, hL.filter _, ?_⟩, ?_⟩
      · intro a ha b hb
        have h1 := of_decide_eq_true (List.mem_filter.1 ha).2
        have h2 := of_decide_eq_true (List.mem_filter.1 hb).2
        rintro rfl
        exact h2.1 h1
      · intro a ha b hb
        have h1 := of_decide_eq_true (List.mem_filter.1 ha).2
        rintro rfl
        rcases List.mem_append.1 hb with hb | hb
        · exact hCZ a (of_decide_eq_true (List.mem_filter.1 hb).2) h1
        · exact (of_decide_eq_true (List.mem_filter.1 hb).2).2 h1
  have hag : ∀ x : V → S, Agrees ev x ↔ keyOf ZL x = keyOf ZL z := by
    intro x
    rw [keyOf_eq_iff]
    constructor
    · intro h u hu
      have hu : Z u := of_decide_eq_true (List.mem_filter.1 hu).2
      obtain ⟨p, hp, rfl⟩ := List.mem_map.1 ((hev u).1 hu)
      rw [h p hp, hzev p hp]
    · intro h p hp
      have hp1 : p.1 ∈ ev.map Prod.fst := List.mem_map_of_mem hp
      rw [h p.1 (List.mem_filter.2 ⟨hevL p.1 hp1, decide_eq_true ((hev p.1).2 hp1)⟩), hzev p hp]
  have hjoint : ∀ x, joint L x = joint (L.filter fun n => ∃ m ∈ n.args, C m) x * joint (L.filter fun n => ¬ ∃ m ∈ n.args, C m) x := by
    intro x
    have hp : L.Perm ((L.filter fun n => ∃ m ∈ n.args, C m) ++ L.filter fun n => ¬ ∃ m ∈ n.args, C m) := by
      have := List.filter_append_perm (fun n : Node V S K => decide (∃ m ∈ n.args, C m)) L
      refine this.symm.trans (List.Perm.of_eq ?_)
      congr 1
      apply List.filter_congr
      intro n _
      exact (decide_not).symm
    rw [joint_perm hp]
    unfold joint
    rw [List.map_append, List.prod_append]
  have hd1 : DependsOn F1 {u | C u ∨ Z u} := by
    intro x y hxy
    rw [hF1]
    dsimp only
    have h2 : joint (L.filter fun n => ∃ m ∈ n.args, C m) x = joint (L.filter fun n => ∃ m ∈ n.args, C m) y := by
      refine joint_dependsOn (P := fun u => C u ∨ Z u) ?_ hxy
      intro n hn a ha
      obtain ⟨hn1, hn2⟩ := List.mem_filter.1 hn
      obtain ⟨m, hm, hc⟩ := of_decide_eq_true hn2
      exact hfam n hn1 m hm hc a ha
    simp only [hA x y hxy, h2]
  have hd2 : DependsOn F2 {u | ¬ C u} := by
    intro x y hxy
    rw [hF2]
    dsimp only
    have h2 : joint (L.filter fun n => ¬ ∃ m ∈ n.args, C m) x = joint (L.filter fun n => ¬ ∃ m ∈ n.args, C m) y := by
      refine joint_dependsOn (P := fun u => ¬ C u) ?_ hxy
      intro n hn a ha hc
      obtain ⟨hn1, hn2⟩ := List.mem_filter.1 hn
      exact of_decide_eq_true hn2 ⟨a, ha, hc⟩
    simp only [hB x y hxy, h2]
  rw [massOf_eq_sumOver, ← hvs, sumOver_perm dom hperm, sumOver_append]
  rw [sumOver_congr dom (g := fun y => if keyOf ZL y = keyOf ZL z then sumOver dom CL F1 y * sumOver dom RL F2 y else 0)]
  · rw [sumOver_indicator hd (hL.filter _) _ hz]
  · intro y
    have h1 : sumOver dom (CL ++ RL) (fun x => if Agrees ev x ∧ A x ∧ B x then joint L x else 0) y =
        sumOver dom (CL ++ RL) (fun x => (if keyOf ZL x = keyOf ZL z then 1 else 0) * (F1 x * F2 x)) y := by
      apply sumOver_congr
      intro x
      rw [hjoint]
      simp only [hag x, hF1, hF2]
      by_cases h1 : keyOf ZL x = keyOf ZL z <;> by_cases h2 : A x <;> by_cases h3 : B x <;> simp [h1, h2, h3]
    rw [h1, sumOver_mul_left dom (A := {u | u ∈ ZL})]
    · rw [sumOver_append]
      have h2 : sumOver dom CL (sumOver dom RL fun x => F1 x * F2 x) y = sumOver dom CL F1 y * sumOver dom RL F2 y := by
        rw [sumOver_congr dom (g := fun x => F1 x * sumOver dom RL F2 x)]
        · rw [sumOver_mul_right dom (A := {u | ¬ C u})]
          · exact sumOver_dependsOn dom RL hd2 fun u hu _ => hu
          · intro u hu h'
            exact h' (of_decide_eq_true (List.mem_filter.1 hu).2)
        · intro x
          rw [sumOver_mul_left dom hd1]
          intro u hu h'
          have := of_decide_eq_true (List.mem_filter.1 hu).2
          exact h'.elim this.1 this.2
      rw [h2]
      by_cases h : keyOf ZL y = keyOf ZL z <;> simp [h]
    · intro a b hab
      have : keyOf ZL a = keyOf ZL b := keyOf_eq_iff.2 fun u hu => hab u hu
      simp only [this]
    · intro u hu h'
      have hzu := of_decide_eq_true (List.mem_filter.1 h').2
      rcases List.mem_append.1 hu with hu | hu
      · exact hCZ u (of_decide_eq_true (List.mem_filter.1 hu).2) hzu
      · exact (of_decide_eq_true (List.mem_filter.1 hu).2).2 hzu

/-- C99.  If `v` is d-separated by the variables of `ev` from all those of `ev'`, events on `v` and `ev'` are independent given `ev`. -/
theorem massOf_dsep {nodes : List (Node V S K)} (hw : NodesWF nodes) (hac : Acyclic (arrows nodes))
    (hdn : ∀ n ∈ nodes, (dom n.var).Nodup) (hn : Normalised dom nodes) {x₀ : V → S} (hx₀ : ∀ u ∈ nodes.map Node.var, x₀ u ∈ dom u)
    {ev ev' : List (V × S)} (hk : (ev.map Prod.fst).Nodup) (hev : GoodEvidence dom nodes ev) {v : V} (hv : v ∈ nodes.map Node.var)
    (hvZ : v ∉ ev.map Prod.fst)
    (hsep : ∀ w ∈ ev'.map Prod.fst, DSeparated (arrows nodes) (· ∈ ev.map Prod.fst) v w) (s : S) :
    massOf dom nodes x₀ (fun x => Agrees (ev ++ ev') x ∧ x v = s) * massOf dom nodes x₀ (Agrees ev) =
      massOf dom nodes x₀ (fun x => Agrees ev x ∧ x v = s) * massOf dom nodes x₀ (Agrees (ev ++ ev')) := by
  classical
  obtain ⟨dom', hcongr, hd, hx⟩ := exists_total_dom hdn hx₀
  have hn' : Normalised dom' nodes := fun n hn' x hx' => by
    rw [hcongr _ (List.mem_map_of_mem hn')]
    exact hn n hn' x fun a ha hav => by
      rw [← hcongr a (hw.args_sub n hn' a ha)]; exact hx' a ha hav
  simp only [← massOf_dom_congr hcongr]
  have hev' : ∀ p ∈ ev, p.2 ∈ dom' p.1 := fun p hp => by
    rw [hcongr _ (hev p hp).1]
    exact (hev p hp).2
  set Z : V → Prop := (· ∈ ev.map Prod.fst) with hZ
  set W : V → Prop := (· ∈ ev'.map Prod.fst) with hW
  set P : V → Prop := fun u => ∃ y, (y = v ∨ W y ∨ Z y) ∧ Relation.ReflTransGen (EdgeRel (arrows nodes)) u y with hP
  set C : V → Prop := fun u => ¬ Z u ∧ ∃ d, Ball (arrows nodes) Z v u d with hC
  have hball : ∀ w, W w → ∀ d, ¬ Ball (arrows nodes) Z v w d := fun w h d => (hsep w h).not_ball hac d
  have hPcl : ∀ n ∈ nodes, P n.var → ∀ a ∈ n.args, P a := by
    rintro n hn ⟨y, hy, hr⟩ a ha
    by_cases h : a = n.var
    · exact ⟨y, hy, h ▸ hr⟩
    · exact ⟨y, hy, hr.head (link_arrows.2 ⟨n, hn, rfl, ha, h⟩)⟩
  have hPself : ∀ u, (u = v ∨ W u ∨ Z u) → P u := fun u hu => ⟨u, hu, Relation.ReflTransGen.refl⟩
  set L := nodes.filter fun n => P n.var with hLdef
  have hLnd : (L.map Node.var).Nodup := hw.nodup.sublist (List.filter_sublist.map _)
  have hz : ∃ z, Valid dom' z ∧ Agrees ev z := by
    refine ⟨fun u => (ev.lookup u).getD (x₀ u), ?_, ?_⟩
    · intro u
      dsimp only
      cases hl : ev.lookup u with
      | none => exact hx u
      | some t => exact hev' _ (lookup_mem hl)
    · intro p hp
      dsimp only
      rw [lookup_of_mem_nodup hk hp]
      rfl
  obtain ⟨z, hz1, hz2⟩ := hz
  have hCv : C v := ⟨hvZ, true, .start⟩
  have hCW : ∀ w, W w → ¬ C w := fun w hw' ⟨_, d, hd'⟩ => hball w hw' d hd'
  have key : ∀ (A B : (V → S) → Prop) [DecidablePred A] [DecidablePred B], (∀ x y : V → S, x v = y v → (A x ↔ A y)) →
      (∀ x y : V → S, (∀ u, W u → x u = y u) → (B x ↔ B y)) → massOf dom' nodes x₀ (fun x => Agrees ev x ∧ A x ∧ B x) =
      sumOver dom' ((L.map Node.var).filter fun u => C u)
        (fun x => if A x then joint (L.filter fun n => ∃ m ∈ n.args, C m) x else 0)
        (ovr (keyOf ((L.map Node.var).filter fun u => Z u) z) x₀) *
      sumOver dom' ((L.map Node.var).filter fun u => ¬ C u ∧ ¬ Z u)
        (fun x => if B x then joint (L.filter fun n => ¬ ∃ m ∈ n.args, C m) x else 0)
        (ovr (keyOf ((L.map Node.var).filter fun u => Z u) z) x₀) := by
    intro A B _ _ hA hB
    rw [massOf_ancestral_aux hw hac hn' hx P hPcl]
    · rw [massOf_separated hd hLnd C Z (fun u h => h.1) ?_ (fun _ => Iff.rfl) ?_ hz1 hz2 x₀ A B ?_ ?_]
      · intro n hn m hm hc a ha
        obtain ⟨hn1, hn2⟩ := List.mem_filter.1 hn
        rcases ball_family (W := W) hball hn1 (of_decide_eq_true hn2) hm ha hc.1 hc.2 with h | h
        · exact Or.inr h
        · by_cases hza : Z a
          · exact Or.inr hza
          · exact Or.inl ⟨hza, h⟩
      · intro u hu
        obtain ⟨p, hp, rfl⟩ := List.mem_map.1 hu
        obtain ⟨n, hn, hnv⟩ := List.mem_map.1 (hev p hp).1
        exact List.mem_map.2 ⟨n, List.mem_filter.2 ⟨hn, decide_eq_true (hPself _ (Or.inr (Or.inr (hnv ▸ hu))))⟩, hnv⟩
      · exact fun x y h => hA x y (h v (Or.inl hCv))
      · exact fun x y h => hB x y fun u hu => h u (hCW u hu)
    · intro x y h
      have h1 : Agrees ev x ↔ Agrees ev y := by
        unfold Agrees
        refine forall₂_congr fun p hp => ?_
        rw [h p.1 (hPself _ (Or.inr (Or.inr (List.mem_map_of_mem hp))))]
      rw [h1, hA x y (h v (hPself v (Or.inl rfl))), hB x y fun u hu => h u (hPself u (Or.inr (Or.inl hu)))]
  have hBev : ∀ x y : V → S, (∀ u, W u → x u = y u) → (Agrees ev' x ↔ Agrees ev' y) := by
    intro x y h
    unfold Agrees
    refine forall₂_congr fun p hp => ?_
    rw [h p.1 (List.mem_map_of_mem hp)]
  have happ : ∀ x : V → S, Agrees (ev ++ ev') x ↔ Agrees ev x ∧ Agrees ev' x := by
    intro x
    unfold Agrees
    simp only [List.mem_append]
    exact ⟨fun h => ⟨fun p hp => h p (Or.inl hp), fun p hp => h p (Or.inr hp)⟩, fun h p hp => hp.elim (h.1 p) (h.2 p)⟩
  have e1 : massOf dom' nodes x₀ (fun x => Agrees (ev ++ ev') x ∧ x v = s) =
      massOf dom' nodes x₀ (fun x => Agrees ev x ∧ x v = s ∧ Agrees ev' x) := massOf_congr fun x => by rw [happ]; tauto
  have e2 : massOf dom' nodes x₀ (Agrees ev) = massOf dom' nodes x₀ (fun x => Agrees ev x ∧ True ∧ True) :=
    massOf_congr fun x => by simp
  have e3 : massOf dom' nodes x₀ (fun x => Agrees ev x ∧ x v = s) = massOf dom' nodes x₀ (fun x => Agrees ev x ∧ x v = s ∧ True) :=
    massOf_congr fun x => by simp
  have e4 : massOf dom' nodes x₀ (Agrees (ev ++ ev')) = massOf dom' nodes x₀ (fun x => Agrees ev x ∧ True ∧ Agrees ev' x) :=
    massOf_congr fun x => by rw [happ]; simp
  rw [e1, e2, e3, e4, key (fun x => x v = s) (Agrees ev') (fun x y h => by rw [h]) hBev,
    key (fun _ => True) (fun _ => True) (fun _ _ _ => Iff.rfl) (fun _ _ _ => Iff.rfl),
    key (fun x => x v = s) (fun _ => True) (fun x y h => by rw [h]) (fun _ _ _ => Iff.rfl),
    key (fun _ => True) (Agrees ev') (fun _ _ _ => Iff.rfl) hBev]
  ring

end

end Verif.BBN
