import Verif.Consistent.Props

/-!
# C134: predictions after fitting to enough rows are the best possible ones
-/

namespace Verif.Consistent

open Verif.BBN Verif.Network Function MeasureTheory ProbabilityTheory
open Verif.Graph (EdgeRel)

section
set_option linter.unusedSectionVars false
variable {V S : Type} [LinearOrder V] [LinearOrder S] {dom : V → List S} {vs : List V} {par : V → List V} {Q : V → S → List S → ℝ}

theorem mem_worlds_of (hvs : vs.Nodup) {x y : V → S} (h1 : ∀ v ∈ vs, y v ∈ dom v) (h2 : ∀ v, v ∉ vs → y v = x v) : y ∈ worlds dom vs x := by
  induction vs generalizing x with
  | nil => rw [worlds, List.mem_singleton]; exact funext fun v => h2 v List.not_mem_nil
  | cons w vs ih =>
    rw [List.nodup_cons] at hvs
    rw [worlds, List.mem_flatMap]
    refine ⟨y w, h1 w List.mem_cons_self, ih hvs.2 (fun v hv => h1 v (List.mem_cons_of_mem _ hv)) fun v hv => ?_⟩
    by_cases e : v = w
    · rw [e, update_self]
    · rw [update_of_ne e]
      exact h2 v (by simp [e, hv])

/-- Given its parents and other variables that are not descendants, a variable has the conditional probabilities of its table. -/
theorem IsModel.conditional_local (h : IsModel dom vs par Q) {v : V} (hv : v ∈ vs) {us : List V} (hus : ∀ p ∈ par v, p ∈ us)
    (hdesc : ∀ u ∈ us, ¬ Relation.ReflTransGen (EdgeRel (arrows (nodesOf vs par Q))) v u) {s : S} (hs : s ∈ dom v) {x₀ : V → S}
    (hx₀ : ∀ u ∈ vs, x₀ u ∈ dom u) (z : V → S) :
    massWith dom vs (truth vs par Q) x₀ (fun x => x v = s ∧ us.map x = us.map z) =
      Q v s ((par v).map z) * massWith dom vs (truth vs par Q) x₀ (fun x => us.map x = us.map z) := by
  let ev : List (V × S) := us.map fun p => (p, z p)
  have hev : ev.map Prod.fst = us := by rw [List.map_map]; exact List.map_id _
  have hag : ∀ x, Agrees ev x ↔ us.map x = us.map z := by
    intro x
    rw [List.map_inj_left]
    constructor
    · exact fun hx p hp => hx (p, z p) (List.mem_map.2 ⟨p, hp, rfl⟩)
    · intro hx q hq
      obtain ⟨p, hp, rfl⟩ := List.mem_map.1 hq
      exact hx p hp
  have key := massOf_local h.wf h.acyclic' h.normalised' h.states' (n := ⟨⟨v :: par v, fun l => match l with | s :: ps => Q v s ps | [] => 0⟩, v⟩)
    (mem_nodesOf.2 ⟨v, hv, rfl⟩) (x₀ := x₀) (by rw [nodesOf_vars]; exact hx₀) (ev := ev)
    (by
      intro a ha hne
      rw [hev]
      rcases List.mem_cons.1 ha with rfl | ha
      · exact absurd rfl hne
      · exact hus a ha)
    (by
      intro p hp
      rw [hev] at hp
      exact hdesc p hp)
    (z := z) ((hag z).2 rfl) hs
  rw [massOf_nodesOf, massOf_nodesOf] at key
  have hmap : (par v).map (update z v s) = (par v).map z := List.map_congr_left fun p hp =>
    update_of_ne (h.parent_ne hv hp) _ _
  change _ = Q v (update z v s v) ((par v).map (update z v s)) * _ at key
  rw [hmap, update_self] at key
  simp only [massWith] at key ⊢
  have e1 : ∀ x : V → S, decide (x v = s ∧ us.map x = us.map z) = decide (Agrees ev x ∧ x v = s) := fun x =>
    decide_eq_decide.2 (by rw [hag, and_comm])
  have e2 : ∀ x : V → S, decide (us.map x = us.map z) = decide (Agrees ev x) := fun x => decide_eq_decide.2 (hag x).symm
  simp only [e1, e2]
  exact key

theorem sum_filter_key {α κ : Type} [DecidableEq κ] (l : List α) (k : α → κ) (J : α → ℝ) (ks : List κ) (hks : ks.Nodup) (hl : ∀ x ∈ l, k x ∈ ks) :
    (l.map J).sum = (ks.map fun c => ((l.filter fun x => k x = c).map J).sum).sum := by
  induction l with
  | nil => simp
  | cons x l ih =>
    have h1 : ∀ c, (((x :: l).filter fun y => k y = c).map J).sum = (if k x = c then J x else 0) + ((l.filter fun y => k y = c).map J).sum := by
      intro c
      by_cases hc : k x = c
      · rw [List.filter_cons_of_pos (by simpa using hc), if_pos hc, List.map_cons, List.sum_cons]
      · rw [List.filter_cons_of_neg (by simpa using hc), if_neg hc, zero_add]
    simp only [h1]
    rw [List.map_cons, List.sum_cons, ih fun y hy => hl y (List.mem_cons_of_mem _ hy), List.sum_map_add]
    congr 1
    have hx := hl x List.mem_cons_self
    clear h1 ih hl
    induction ks with
    | nil => simp at hx
    | cons c ks ihk =>
      rw [List.nodup_cons] at hks
      rw [List.map_cons, List.sum_cons]
      rcases List.mem_cons.1 hx with e | hx
      · rw [if_pos e]
        have : (ks.map fun c => if k x = c then J x else 0).sum = 0 := by
          apply List.sum_eq_zero
          intro y hy
          obtain ⟨d, hd, rfl⟩ := List.mem_map.1 hy
          exact if_neg fun e' => hks.1 (by rw [← e, e']; exact hd)
        rw [this, add_zero]
      · rw [if_neg fun e' => hks.1 (by rw [← e']; exact hx), zero_add]
        exact ihk hks.2 hx

/-- A rule that returns a most probable state given the parents is right at least as often as any rule that uses only variables that are not
descendants. -/
theorem IsModel.accuracy_le (h : IsModel dom vs par Q) {v : V} (hv : v ∈ vs) {x₀ : V → S} (hx₀ : ∀ u ∈ vs, x₀ u ∈ dom u) {g : List S → S}
    (hg : ∀ z : V → S, (∀ u ∈ vs, z u ∈ dom u) → 0 < massWith dom vs (truth vs par Q) x₀ (fun x => (par v).map x = (par v).map z) →
      g ((par v).map z) ∈ dom v ∧ ∀ s ∈ dom v, Q v s ((par v).map z) ≤ Q v (g ((par v).map z)) ((par v).map z))
    {f : (V → S) → S} (hf : ∀ x y, (∀ u ∈ vs, ¬ Relation.ReflTransGen (EdgeRel (arrows (nodesOf vs par Q))) v u → x u = y u) → f x = f y) :
    massWith dom vs (truth vs par Q) x₀ (fun x => f x = x v) ≤ massWith dom vs (truth vs par Q) x₀ (fun x => g ((par v).map x) = x v) := by
  classical
  let us : List V := vs.filter fun u => ¬ Relation.ReflTransGen (EdgeRel (arrows (nodesOf vs par Q))) v u
  have hmem : ∀ u, u ∈ us ↔ u ∈ vs ∧ ¬ Relation.ReflTransGen (EdgeRel (arrows (nodesOf vs par Q))) v u := by
    intro u
    simp [us]
  have hus : ∀ p ∈ par v, p ∈ us := by
    intro p hp
    refine (hmem p).2 ⟨h.parents v hv p hp, fun hr => h.acyclic' v (.tail' hr ?_)⟩
    rw [h.arrows_eq]
    exact List.mem_flatMap.2 ⟨v, hv, List.mem_map.2 ⟨p, hp, rfl⟩⟩
  let W := worlds dom vs x₀
  let ks : List (List S) := (W.map fun x => us.map x).dedup
  have hsplit : ∀ (A : (V → S) → Prop) [DecidablePred A], massWith dom vs (truth vs par Q) x₀ A =
      (ks.map fun c => massWith dom vs (truth vs par Q) x₀ (fun x => A x ∧ us.map x = c)).sum := by
    intro A _
    unfold massWith
    rw [sum_filter_key (W.filter fun x => A x) (fun x => us.map x) (truth vs par Q) ks (List.nodup_dedup _)
      (fun x hx => List.mem_dedup.2 (List.mem_map_of_mem (List.mem_filter.1 hx).1))]
    refine congrArg List.sum (List.map_congr_left fun c _ => ?_)
    rw [List.filter_filter]
    congr 2
    refine List.filter_congr fun x _ => ?_
    rw [Bool.decide_and, Bool.and_comm]
  rw [hsplit, hsplit]
  refine List.sum_le_sum fun c hc => ?_
  obtain ⟨z, hz, rfl⟩ := List.mem_map.1 (List.mem_dedup.1 hc)
  have hzv : ∀ u ∈ vs, z u ∈ dom u := fun u hu => (worlds_valid hz u).1 hu
  have hpz : ∀ x : V → S, us.map x = us.map z → (par v).map x = (par v).map z := fun x hx =>
    List.map_congr_left fun p hp => List.map_inj_left.1 hx p (hus p hp)
  have e1 : massWith dom vs (truth vs par Q) x₀ (fun x => f x = x v ∧ us.map x = us.map z) =
      massWith dom vs (truth vs par Q) x₀ (fun x => x v = f z ∧ us.map x = us.map z) := by
    unfold massWith
    congr 2
    refine List.filter_congr fun x _ => decide_eq_decide.2 (and_congr_left fun hx => ?_)
    rw [hf x z fun u hu hd => List.map_inj_left.1 hx u ((hmem u).2 ⟨hu, hd⟩)]
    exact eq_comm
  have e2 : massWith dom vs (truth vs par Q) x₀ (fun x => g ((par v).map x) = x v ∧ us.map x = us.map z) =
      massWith dom vs (truth vs par Q) x₀ (fun x => x v = g ((par v).map z) ∧ us.map x = us.map z) := by
    unfold massWith
    congr 2
    refine List.filter_congr fun x _ => decide_eq_decide.2 (and_congr_left fun hx => ?_)
    rw [hpz x hx]
    exact eq_comm
  rw [e1, e2]
  by_cases hfz : f z ∈ dom v
  swap
  · have h0 : massWith dom vs (truth vs par Q) x₀ (fun x => x v = f z ∧ us.map x = us.map z) = 0 := by
      unfold massWith
      rw [List.filter_eq_nil_iff.2]
      · rfl
      · intro x hx
        simp only [decide_eq_true_eq, not_and]
        exact fun e => absurd (e ▸ (worlds_valid hx v).1 hv) hfz
    rw [h0]
    exact h.mass_nonneg _ _
  rw [h.conditional_local hv hus (fun u hu => ((hmem u).1 hu).2) hfz hx₀ z]
  rcases (h.mass_nonneg x₀ (fun x => us.map x = us.map z)).eq_or_lt with h0 | hpos
  · rw [← h0, mul_zero]
    exact h.mass_nonneg _ _
  · obtain ⟨hgd, hmax⟩ := hg z hzv (lt_of_lt_of_le hpos (h.mass_mono x₀ hpz))
    rw [h.conditional_local hv hus (fun u hu => ((hmem u).1 hu).2) hgd hx₀ z]
    exact mul_le_mul_of_nonneg_right (hmax _ hfz) hpos.le

/-- The gaps between different conditional probabilities are bounded from below. -/
theorem exists_gap (vs : List V) (dom : V → List S) (par : V → List V) (Q : V → S → List S → ℝ) (W : List (V → S)) :
    ∃ ε > 0, ∀ v ∈ vs, ∀ z ∈ W, ∀ s ∈ dom v, ∀ s' ∈ dom v, Q v s ((par v).map z) < Q v s' ((par v).map z) →
      ε ≤ Q v s' ((par v).map z) - Q v s ((par v).map z) := by
  obtain ⟨D, hD, h⟩ := exists_lower (vs.flatMap fun v => W.flatMap fun z => (dom v).flatMap fun s => (dom v).map fun s' => (v, z, s, s'))
    (fun q => Q q.1 q.2.2.2 ((par q.1).map q.2.1) - Q q.1 q.2.2.1 ((par q.1).map q.2.1))
  refine ⟨D, hD, fun v hv z hz s hs s' hs' hlt => h (v, z, s, s') ?_ (sub_pos.2 hlt)⟩
  refine List.mem_flatMap.2 ⟨v, hv, List.mem_flatMap.2 ⟨z, hz, List.mem_flatMap.2 ⟨s, hs, List.mem_map.2 ⟨s', hs', rfl⟩⟩⟩⟩

/-- Rows in which every assignment has nearly its probability give optimal predictions. -/
theorem predict_close {int : ℕ → S} (hint : Injective int) {ns : List V} {E : List (V × V)} (hE : IsStructure ns E) (hEne : E ≠ [])
    {net : Net V S ℝ} (hr : Reach int ns E net) {x₀ : V → S} (hx₀ : ∀ v ∈ net.nodes, x₀ v ∈ statesOf net v)
    {par : V → List V} (hpar : ∀ v ∈ net.nodes, IsParentList E v (par v)) {Q : V → S → List S → ℝ} (hQ : IsConditional net par Q)
    {a : FitArgs ℝ} (ha : GoodArgs a) (hess : ∀ n, a.ess = some n → 0 < n) :
    ∃ δ : ℝ, 0 < δ ∧ ∃ n₀ : ℕ, ∀ n, n₀ ≤ n → ∀ R : Fin n → V → S, (∀ i, ∀ v ∈ net.nodes, R i v ∈ statesOf net v) →
      (∀ σ ∈ worlds (statesOf net) net.nodes x₀, |(cell net.nodes R σ : ℝ) / n - truth net.nodes par Q σ| ≤ δ) →
      ∀ (h : Heap V S) (ref : ℕ) (train : DF V S), h[ref]? = some train → RowsAre net.nodes train R →
      ∃ net' h', fitCpds int net h ref a = (net', h', .ok ()) ∧ ∀ v ∈ net.nodes, ∃ g : List S → S,
        -- the predictions are given by a function of the states of the parents,
        (∀ (h₂ : Heap V S) (ref₂ : ℕ) (df : DF V S), h₂[ref₂]? = some df → (∀ u ∈ par v, u ∈ df.cols) →
          (∀ r ∈ df.rows, ∀ u ∈ par v, ∃ s ∈ statesOf net u, r u = some s) → ∀ (oracle : DF V S → List ℕ) (predName : V → V),
          ∃ h₃ out, predict oracle int predName net' h₂ ref₂ v = (h₃, .ok out) ∧
            List.Forall₂ (fun r r' => ∃ ps, (par v).map r = ps.map some ∧ r' (predName v) = some (g ps)) df.rows out.rows) ∧
        -- this function returns a state that is most probable given the states of the parents,
        (∀ z : V → S, (∀ u ∈ net.nodes, z u ∈ statesOf net u) →
          0 < massWith (statesOf net) net.nodes (truth net.nodes par Q) x₀ (fun x => (par v).map x = (par v).map z) →
          g ((par v).map z) ∈ statesOf net v ∧ ∀ s ∈ statesOf net v,
            massWith (statesOf net) net.nodes (truth net.nodes par Q) x₀ (fun x => x v = s ∧ (par v).map x = (par v).map z) ≤
              massWith (statesOf net) net.nodes (truth net.nodes par Q) x₀
                (fun x => x v = g ((par v).map z) ∧ (par v).map x = (par v).map z)) ∧
        -- and no other rule is right more often.
        ∀ f : (V → S) → S, (∀ x y, (∀ u ∈ net.nodes, ¬ Relation.ReflTransGen (EdgeRel E) v u → x u = y u) → f x = f y) →
          massWith (statesOf net) net.nodes (truth net.nodes par Q) x₀ (fun x => f x = x v) ≤
            massWith (statesOf net) net.nodes (truth net.nodes par Q) x₀ (fun x => g ((par v).map x) = x v) := by
  classical
  have hw := hr.wf hE
  have hne : ∀ v ∈ net.nodes, statesOf net v ≠ [] := fun v hv => List.ne_nil_of_mem (hx₀ v hv)
  obtain ⟨e₀, he₀⟩ := List.exists_mem_of_ne_nil E hEne
  have hnode : e₀.1 ∈ net.nodes := by
    rw [hw.nodes]
    exact Verif.Network.mem_nodesOfEdges.2 ⟨e₀, he₀, Or.inl rfl⟩
  have hd : ∀ v, (statesOf net v).Nodup := by
    intro v
    cases hst : net.states with
    | none => exact absurd (by rw [statesOf, hst]) (hne _ hnode)
    | some states =>
      rw [Verif.Network.statesOf_eq hst]
      exact Verif.Network.keysOf_nodup (hw.encWF hst) v
  have hM := isModel_of hE hr hd hpar hQ
  obtain ⟨ε, hε, hgap⟩ := exists_gap net.nodes (statesOf net) par Q (worlds (statesOf net) net.nodes x₀)
  obtain ⟨δ, hδ, n₀, hclose⟩ := fit_close hint hE hEne hr hx₀ hpar hQ ha hess (ε := ε / 3) (by positivity)
  refine ⟨δ, hδ, n₀, fun n hn R hR hgood h ref train htr hrows => ?_⟩
  obtain ⟨net', h', tables, hf, hc, hkeys, hclose, -⟩ := hclose n hn R hR hgood h ref train htr hrows
  refine ⟨net', h', hf, fun v hv => ?_⟩
  obtain ⟨⟨v, t⟩, ht, rfl⟩ := List.mem_map.1 (hkeys ▸ hv)
  obtain ⟨hpt, hent⟩ := hclose v t ht
  dsimp only at hv ⊢
  let Best : List S → S → Prop := fun ps s => s ∈ statesOf net v ∧ ∃ x, t.entry s ps = some x ∧
    ∀ s' ∈ statesOf net v, ∃ y, t.entry s' ps = some y ∧ y ≤ x ∧ (s' < s → y < x)
  have huniq : ∀ ps s s', Best ps s → Best ps s' → s = s' := by
    have key : ∀ ps s s', Best ps s → Best ps s' → ¬ s < s' := by
      rintro ps s s' ⟨hs, x, hx, h1⟩ ⟨hs', x', hx', h2⟩ hlt
      obtain ⟨y, hy, hyx, -⟩ := h1 s' hs'
      obtain ⟨y', hy', -, hyx'⟩ := h2 s hs
      rw [hx'] at hy
      rw [hx] at hy'
      cases hy
      cases hy'
      exact absurd (hyx' hlt) (not_lt.2 hyx)
    intro ps s s' h1 h2
    exact le_antisymm (not_lt.1 (key ps s' s h2 h1)) (not_lt.1 (key ps s s' h1 h2))
  let g : List S → S := fun ps => if hb : ∃ s, Best ps s then hb.choose else x₀ v
  have hgeq : ∀ ps s, Best ps s → g ps = s := by
    intro ps s hs
    have hb : ∃ s, Best ps s := ⟨s, hs⟩
    change (if hb : ∃ s, Best ps s then hb.choose else x₀ v) = s
    rw [dif_pos hb]
    exact huniq ps _ _ hb.choose_spec hs
  -- predictions
  have hpred : ∀ (h₂ : Heap V S) (ref₂ : ℕ) (df : DF V S), h₂[ref₂]? = some df → (∀ u ∈ par v, u ∈ df.cols) →
      (∀ r ∈ df.rows, ∀ u ∈ par v, ∃ s ∈ statesOf net u, r u = some s) → ∀ (oracle : DF V S → List ℕ) (predName : V → V),
      ∃ h₃ out, predict oracle int predName net' h₂ ref₂ v = (h₃, .ok out) ∧
        List.Forall₂ (fun r r' => ∃ ps, (par v).map r = ps.map some ∧ r' (predName v) = some (g ps) ∧ Best ps (g ps)) df.rows out.rows := by
    intro h₂ ref₂ df hdf hcols hk oracle predName
    rw [← hpt] at hcols hk
    obtain ⟨h₃, out, h1, -, -, h2⟩ := predict_argmax hint hE hr hne hf hc ht hdf hcols hk oracle predName
    refine ⟨h₃, out, h1, h2.imp ?_⟩
    rintro r r' ⟨s, hs, ps, x, hps, hr', hx, hmax⟩
    have hb : Best ps s := ⟨hs, x, hx, hmax⟩
    rw [hpt] at hps
    refine ⟨ps, hps, ?_, ?_⟩
    · rw [hgeq ps s hb]; exact hr'
    · rw [hgeq ps s hb]; exact hb
  have hbest : ∀ z : V → S, (∀ u ∈ net.nodes, z u ∈ statesOf net u) → Best ((par v).map z) (g ((par v).map z)) := by
    intro z hz
    obtain ⟨-, out, -, h2⟩ := hpred [⟨par v, [fun u => some (z u)]⟩] 0 ⟨par v, [fun u => some (z u)]⟩ rfl (fun u hu => hu) (by
      intro r hr u hu
      rw [List.mem_singleton.1 hr]
      exact ⟨z u, hz u (hM.parents v hv u hu), rfl⟩) (fun _ => []) id
    obtain ⟨r', -, ⟨ps, hps, -, hb⟩, -⟩ := List.forall₂_cons_left_iff.1 h2
    have : ps = (par v).map z := by
      apply List.map_injective_iff.2 (Option.some_injective S)
      rw [← hps, List.map_map]
      rfl
    rw [← this]
    exact hb
  have hopt : ∀ z : V → S, (∀ u ∈ net.nodes, z u ∈ statesOf net u) →
      0 < massWith (statesOf net) net.nodes (truth net.nodes par Q) x₀ (fun x => (par v).map x = (par v).map z) →
      g ((par v).map z) ∈ statesOf net v ∧ ∀ s ∈ statesOf net v, Q v s ((par v).map z) ≤ Q v (g ((par v).map z)) ((par v).map z) := by
    intro z hz hpos
    obtain ⟨hgs, x, hx, hmax⟩ := hbest z hz
    refine ⟨hgs, fun s hs => ?_⟩
    by_contra hlt
    rw [not_le] at hlt
    obtain ⟨y, hy, hyx, -⟩ := hmax s hs
    obtain ⟨q₁, hq₁, hd₁⟩ := hent s hs z hz hpos
    obtain ⟨q₂, hq₂, hd₂⟩ := hent _ hgs z hz hpos
    rw [hy] at hq₁
    rw [hx] at hq₂
    cases hq₁
    cases hq₂
    -- an assignment of the nodes that agrees with `z`
    let z' : V → S := fun u => if u ∈ net.nodes then z u else x₀ u
    have hz' : z' ∈ worlds (statesOf net) net.nodes x₀ := by
      refine mem_worlds_of hM.nodup ?_ ?_
      · intro u hu
        simp only [z', if_pos hu]
        exact hz u hu
      · intro u hu
        simp only [z', if_neg hu]
    have hmz : (par v).map z' = (par v).map z := List.map_congr_left fun u hu => if_pos (hM.parents v hv u hu)
    have := hgap v hv z' hz' _ hgs s hs (by rw [hmz]; exact hlt)
    rw [hmz] at this
    rw [abs_le] at hd₁ hd₂
    linarith [hd₁.1, hd₁.2, hd₂.1, hd₂.2]
  refine ⟨g, fun h₂ ref₂ df hdf hcols hk oracle predName => ?_, fun z hz hpos => ?_, fun f hff => ?_⟩
  · obtain ⟨h₃, out, h1, h2⟩ := hpred h₂ ref₂ df hdf hcols hk oracle predName
    exact ⟨h₃, out, h1, h2.imp fun r r' ⟨ps, a1, a2, _⟩ => ⟨ps, a1, a2⟩⟩
  · obtain ⟨h1, h2⟩ := hopt z hz hpos
    refine ⟨h1, fun s hs => ?_⟩
    rw [hM.conditional hv hs hx₀, hM.conditional hv h1 hx₀]
    exact mul_le_mul_of_nonneg_right (h2 s hs) hpos.le
  · refine hM.accuracy_le hv hx₀ hopt fun x y hxy => hff x y fun u hu hnd => hxy u hu fun hr => hnd ?_
    refine Relation.ReflTransGen.mono (fun b c hbc => ?_) _ _ hr
    rw [EdgeRel, hM.arrows_eq] at hbc
    obtain ⟨w, hw', h1⟩ := List.mem_flatMap.1 hbc
    obtain ⟨q, hq, e⟩ := List.mem_map.1 h1
    cases e
    exact ((hpar _ hw').2 _).1 hq

/-- **C134**: among sufficiently many independent rows of a distribution with the structure of the network, with high probability fitting succeeds
and `predict` returns, in every complete row with possible states of the parents, a most probable state given the parents; and no rule that uses
all nodes except the predicted one and its descendants is right with a larger probability than `predict`. -/
theorem predict_optimal {int : ℕ → S} (hint : Injective int) {ns : List V} {E : List (V × V)} (hE : IsStructure ns E) (hEne : E ≠ [])
    {net : Net V S ℝ} (hr : Reach int ns E net) {x₀ : V → S} (hx₀ : ∀ v ∈ net.nodes, x₀ v ∈ statesOf net v)
    {par : V → List V} (hpar : ∀ v ∈ net.nodes, IsParentList E v (par v)) {Q : V → S → List S → ℝ} (hQ : IsConditional net par Q)
    {a : FitArgs ℝ} (ha : GoodArgs a) (hess : ∀ n, a.ess = some n → 0 < n) {p : ℝ} (hp : 0 < p) :
    ∃ n₀ : ℕ, ∀ n, n₀ ≤ n → ∀ {Ω : Type} [MeasurableSpace Ω] (P : Measure Ω) [IsProbabilityMeasure P] (X : Fin n → Ω → V → S),
      RowsFrom P (statesOf net) net.nodes par Q X →
      ∃ G : Set Ω, MeasurableSet G ∧ 1 - ENNReal.ofReal p ≤ P G ∧
      ∀ ω ∈ G, ∀ (h : Heap V S) (ref : ℕ) (train : DF V S), h[ref]? = some train → RowsAre net.nodes train (fun i => X i ω) →
      ∃ net' h', fitCpds int net h ref a = (net', h', .ok ()) ∧ ∀ v ∈ net.nodes, ∃ g : List S → S,
        -- the predictions are given by a function of the states of the parents,
        (∀ (h₂ : Heap V S) (ref₂ : ℕ) (df : DF V S), h₂[ref₂]? = some df → (∀ u ∈ par v, u ∈ df.cols) →
          (∀ r ∈ df.rows, ∀ u ∈ par v, ∃ s ∈ statesOf net u, r u = some s) → ∀ (oracle : DF V S → List ℕ) (predName : V → V),
          ∃ h₃ out, predict oracle int predName net' h₂ ref₂ v = (h₃, .ok out) ∧
            List.Forall₂ (fun r r' => ∃ ps, (par v).map r = ps.map some ∧ r' (predName v) = some (g ps)) df.rows out.rows) ∧
        -- this function returns a state that is most probable given the states of the parents,
        (∀ z : V → S, (∀ u ∈ net.nodes, z u ∈ statesOf net u) →
          0 < massWith (statesOf net) net.nodes (truth net.nodes par Q) x₀ (fun x => (par v).map x = (par v).map z) →
          g ((par v).map z) ∈ statesOf net v ∧ ∀ s ∈ statesOf net v,
            massWith (statesOf net) net.nodes (truth net.nodes par Q) x₀ (fun x => x v = s ∧ (par v).map x = (par v).map z) ≤
              massWith (statesOf net) net.nodes (truth net.nodes par Q) x₀
                (fun x => x v = g ((par v).map z) ∧ (par v).map x = (par v).map z)) ∧
        -- and no other rule is right more often.
        ∀ f : (V → S) → S, (∀ x y, (∀ u ∈ net.nodes, ¬ Relation.ReflTransGen (EdgeRel E) v u → x u = y u) → f x = f y) →
          massWith (statesOf net) net.nodes (truth net.nodes par Q) x₀ (fun x => f x = x v) ≤
            massWith (statesOf net) net.nodes (truth net.nodes par Q) x₀ (fun x => g ((par v).map x) = x v) := by
  obtain ⟨δ, hδ, n₁, hclose⟩ := predict_close hint hE hEne hr hx₀ hpar hQ ha hess
  obtain ⟨n₀, hn₀, hrc⟩ := rows_close (isModel_of hE hr (states_nodup hE hr) hpar hQ) x₀ hδ hp n₁
  refine ⟨n₀, fun n hn Ω _ P _ X hX => ?_⟩
  obtain ⟨G, hG, hPG, hgood⟩ := hrc n hn P X hX
  exact ⟨G, hG, hPG, fun ω hω => hclose n (hn₀.trans hn) _ (hgood ω hω).1 (hgood ω hω).2⟩

end

end Verif.Consistent
