import Verif.BBN.RenameSpec
import Verif.BBN.Coherent

/-!
# C139: names of nodes and states make no difference to an inference engine
-/

namespace Verif.BBN

open Function

section
variable {V S V₂ S₂ K : Type} [LinearOrder V] [LinearOrder V₂] [DecidableEq S] [DecidableEq S₂]
variable {f : V → V₂} {φ : V → S → S₂}

/-! ### Sums over assignments -/

theorem sumOver_same [AddCommMonoid K] (hf : Injective f) {N : List V} {dom : V → List S} {dom₂ : V₂ → List S₂}
    (hd : ∀ v ∈ N, (dom₂ (f v)).Perm ((dom v).map (φ v))) {h : (V → S) → K} {h₂ : (V₂ → S₂) → K}
    (hh : ∀ x y, SameWorld f φ N x y → (∀ w ∈ N, x w ∈ dom w) → h₂ y = h x) {vs : List V} (hvs : ∀ v ∈ vs, v ∈ N)
    {x : V → S} {y : V₂ → S₂} (hxy : SameWorld f φ N x y) (hx : ∀ w ∈ N, x w ∈ dom w) :
    sumOver dom₂ (vs.map f) h₂ y = sumOver dom vs h x := by
  induction vs generalizing x y with
  | nil => exact hh x y hxy hx
  | cons v vs ih =>
    have hv := hvs v List.mem_cons_self
    rw [List.map_cons, sumOver, sumOver, ((hd v hv).map _).sum_eq, List.map_map]
    congr 1
    apply List.map_congr_left
    intro s hs
    refine ih (fun u hu => hvs u (List.mem_cons_of_mem _ hu)) ?_ ?_
    · intro w hw
      by_cases hwv : w = v
      · subst hwv; rw [update_self, update_self]
      · rw [update_of_ne (fun e => hwv (hf e)), update_of_ne hwv, hxy w hw]
    · intro w hw
      by_cases hwv : w = v
      · subst hwv; rwa [update_self]
      · rw [update_of_ne hwv]; exact hx w hw

/-! ### Tables -/

variable [Field K]

/-- The CPD `b` of `f v` is the CPD `a` of `v`, up to names. -/
structure SameCpd (f : V → V₂) (φ : V → S → S₂) (N : List V) (dom : V → List S) (v : V) (a : Cpd V S K) (b : Cpd V₂ S₂ K) : Prop where
  states : b.states = a.states.image (φ v)
  parents : b.parents.Perm (a.parents.map f)
  probs : ∀ x y, SameWorld f φ N x y → (∀ w ∈ N, x w ∈ dom w) → b.p (y (f v)) (b.parents.map y) = a.p (x v) (a.parents.map x)

/-- The CPDs of two engines are the same, up to names. -/
structure SameCpds (f : V → V₂) (φ : V → S → S₂) (N : List V) (dom : V → List S) (c : List (V × Cpd V S K))
    (c₂ : List (V₂ × Cpd V₂ S₂ K)) : Prop where
  vars : c.map Prod.fst = N
  nodup : N.Nodup
  vars₂ : (c₂.map Prod.fst).Perm (N.map f)
  each : ∀ v a b, c.lookup v = some a → c₂.lookup (f v) = some b → SameCpd f φ N dom v a b

theorem joint_eq_lookup {c : List (V × Cpd V S K)} (hn : (c.map Prod.fst).Nodup) (x : V → S) :
    joint (netNodes c) x = ((c.map Prod.fst).map fun v => ((c.lookup v).map fun a => a.p (x v) (a.parents.map x)).getD 1).prod := by
  unfold joint netNodes
  rw [List.map_map, List.map_map]
  congr 1
  apply List.map_congr_left
  intro q hq
  simp only [comp_apply]
  rw [lookup_of_mem_nodup hn (show (q.1, q.2) ∈ c from hq)]
  rfl

section
variable {N : List V} {dom : V → List S} {c : List (V × Cpd V S K)} {c₂ : List (V₂ × Cpd V₂ S₂ K)}

omit [Field K] in
theorem SameCpds.lookup_both (h : SameCpds f φ N dom c c₂) {v : V} (hv : v ∈ N) :
    ∃ a b, c.lookup v = some a ∧ c₂.lookup (f v) = some b ∧ SameCpd f φ N dom v a b := by
  obtain ⟨a, ha⟩ := (lookup_isSome_iff c v).2 (h.vars.symm ▸ hv)
  obtain ⟨b, hb⟩ := (lookup_isSome_iff c₂ (f v)).2 (h.vars₂.mem_iff.2 (List.mem_map_of_mem hv))
  exact ⟨a, b, ha, hb, h.each v a b ha hb⟩

omit [Field K] in
theorem SameCpds.nodup₂ (h : SameCpds f φ N dom c c₂) (hf : Injective f) : (c₂.map Prod.fst).Nodup :=
  h.vars₂.nodup_iff.2 (h.nodup.map hf)

theorem SameCpds.joint (h : SameCpds f φ N dom c c₂) (hf : Injective f) {x : V → S} {y : V₂ → S₂} (hxy : SameWorld f φ N x y)
    (hx : ∀ w ∈ N, x w ∈ dom w) : joint (netNodes c₂) y = joint (netNodes c) x := by
  rw [joint_eq_lookup (h.nodup₂ hf), joint_eq_lookup (h.vars.symm ▸ h.nodup), (h.vars₂.map _).prod_eq, List.map_map, h.vars]
  congr 1
  apply List.map_congr_left
  intro v hv
  obtain ⟨a, b, ha, hb, hab⟩ := h.lookup_both hv
  simp only [comp_apply, ha, hb, Option.map_some, Option.getD_some]
  exact hab.probs x y hxy hx

theorem SameCpds.massOf (h : SameCpds f φ N dom c c₂) (hf : Injective f) {dom₂ : V₂ → List S₂}
    (hd : ∀ v ∈ N, (dom₂ (f v)).Perm ((dom v).map (φ v))) {A : (V → S) → Prop} {B : (V₂ → S₂) → Prop} [DecidablePred A]
    [DecidablePred B] (hAB : ∀ x y, SameWorld f φ N x y → (B y ↔ A x)) {x₀ : V → S} {y₀ : V₂ → S₂} (h0 : SameWorld f φ N x₀ y₀)
    (hx₀ : ∀ w ∈ N, x₀ w ∈ dom w) : massOf dom₂ (netNodes c₂) y₀ B = massOf dom (netNodes c) x₀ A := by
  rw [massOf_eq_sumOver, massOf_eq_sumOver, netNodes_vars, netNodes_vars, h.vars, sumOver_perm dom₂ h.vars₂]
  refine sumOver_same hf hd (fun x y hxy hx => ?_) (fun v hv => hv) h0 hx₀
  rw [h.joint hf hxy hx]
  simp only [hAB x y hxy]

/-! ### Graphs -/

theorem SameCpds.isParent (h : SameCpds f φ N dom c c₂) (hf : Injective f) (v : V) : IsParent c₂ (f v) ↔ IsParent c v := by
  constructor
  · rintro ⟨⟨w, b⟩, hq, hv⟩
    obtain ⟨u, hu, rfl⟩ := List.mem_map.1 (h.vars₂.mem_iff.1 (List.mem_map_of_mem (f := Prod.fst) hq))
    obtain ⟨a, b', ha, hb, hab⟩ := h.lookup_both hu
    rw [lookup_of_mem_nodup (h.nodup₂ hf) hq] at hb
    cases hb
    obtain ⟨v', hv', e⟩ := List.mem_map.1 (hab.parents.mem_iff.1 hv)
    exact ⟨(u, a), lookup_mem ha, hf e ▸ hv'⟩
  · rintro ⟨⟨u, a⟩, hq, hv⟩
    obtain ⟨a', b, ha, hb, hab⟩ := h.lookup_both (h.vars ▸ List.mem_map_of_mem (f := Prod.fst) hq)
    rw [lookup_of_mem_nodup (h.vars.symm ▸ h.nodup) hq] at ha
    cases ha
    exact ⟨(f u, b), lookup_mem hb, hab.parents.mem_iff.2 (List.mem_map_of_mem hv)⟩

theorem mem_arrows_netNodes {c : List (V × Cpd V S K)} {u v : V} :
    (u, v) ∈ arrows (netNodes c) ↔ ∃ a, (v, a) ∈ c ∧ u ∈ a.parents ∧ u ≠ v := by
  rw [link_arrows]
  unfold netNodes
  constructor
  · rintro ⟨n, hn, hv, hu, huv⟩
    obtain ⟨q, hq, rfl⟩ := List.mem_map.1 hn
    simp only at hv
    subst hv
    refine ⟨q.2, hq, ?_, huv⟩
    simpa [cpdFactor, huv] using hu
  · rintro ⟨a, ha, hu, huv⟩
    exact ⟨_, List.mem_map_of_mem ha, rfl, List.mem_cons_of_mem _ hu, huv⟩

theorem SameCpds.arrow (h : SameCpds f φ N dom c c₂) (hf : Injective f) {u v : V} :
    (f u, f v) ∈ arrows (netNodes c₂) ↔ (u, v) ∈ arrows (netNodes c) := by
  rw [mem_arrows_netNodes, mem_arrows_netNodes]
  constructor
  · rintro ⟨b, hq, hu, huv⟩
    obtain ⟨v', hv', e⟩ := List.mem_map.1 (h.vars₂.mem_iff.1 (List.mem_map_of_mem (f := Prod.fst) hq))
    obtain rfl := hf e
    obtain ⟨a, b', ha, hb, hab⟩ := h.lookup_both hv'
    rw [lookup_of_mem_nodup (h.nodup₂ hf) hq] at hb
    cases hb
    obtain ⟨u', hu', e'⟩ := List.mem_map.1 (hab.parents.mem_iff.1 hu)
    exact ⟨a, lookup_mem ha, hf e' ▸ hu', fun e'' => huv (by rw [e''])⟩
  · rintro ⟨a, hq, hu, huv⟩
    obtain ⟨a', b, ha, hb, hab⟩ := h.lookup_both (h.vars ▸ List.mem_map_of_mem (f := Prod.fst) hq)
    rw [lookup_of_mem_nodup (h.vars.symm ▸ h.nodup) hq] at ha
    cases ha
    exact ⟨b, lookup_mem hb, hab.parents.mem_iff.2 (List.mem_map_of_mem hu), fun e => huv (hf e)⟩

theorem SameCpds.arrow_image (h : SameCpds f φ N dom c c₂) (hf : Injective f) {w z : V₂} (hwz : (w, z) ∈ arrows (netNodes c₂)) :
    ∃ u v, f u = w ∧ f v = z := by
  obtain ⟨b, hq, hu, -⟩ := mem_arrows_netNodes.1 hwz
  obtain ⟨v, hv, rfl⟩ := List.mem_map.1 (h.vars₂.mem_iff.1 (List.mem_map_of_mem (f := Prod.fst) hq))
  obtain ⟨a, b', ha, hb, hab⟩ := h.lookup_both hv
  rw [lookup_of_mem_nodup (h.nodup₂ hf) hq] at hb
  cases hb
  obtain ⟨u, -, rfl⟩ := List.mem_map.1 (hab.parents.mem_iff.1 hu)
  exact ⟨u, v, rfl, rfl⟩

theorem SameCpds.link (h : SameCpds f φ N dom c c₂) (hf : Injective f) {u v : V} :
    Graph.Link (arrows (netNodes c₂)) (f u) (f v) ↔ Graph.Link (arrows (netNodes c)) u v := by
  unfold Graph.Link
  rw [h.arrow hf, h.arrow hf]

theorem SameCpds.connected (h : SameCpds f φ N dom c c₂) (hf : Injective f) : Connected (netNodes c₂) ↔ Connected (netNodes c) := by
  have hw : ∀ u v, Graph.WConn (arrows (netNodes c₂)) (f u) (f v) ↔ Graph.WConn (arrows (netNodes c)) u v := by
    intro u v
    constructor
    · intro hc
      have : ∀ z, Graph.WConn (arrows (netNodes c₂)) (f u) z → ∃ v, f v = z ∧ Graph.WConn (arrows (netNodes c)) u v := by
        intro z hz
        induction hz with
        | refl => exact ⟨u, rfl, .refl⟩
        | tail _ hl ih =>
          obtain ⟨v, rfl, hv⟩ := ih
          obtain ⟨v', rfl⟩ : ∃ v', f v' = _ := by
            rcases hl with hl | hl
            · obtain ⟨_, v', -, e⟩ := h.arrow_image hf hl; exact ⟨v', e⟩
            · obtain ⟨v', _, e, -⟩ := h.arrow_image hf hl; exact ⟨v', e⟩
          exact ⟨v', rfl, hv.tail ((h.link hf).1 hl)⟩
      obtain ⟨v', e, hv'⟩ := this _ hc
      rwa [hf e] at hv'
    · intro hc
      exact Relation.ReflTransGen.lift f (fun a b hab => (h.link hf).2 hab) _ _ hc
  unfold Connected
  rw [netNodes_vars, netNodes_vars, h.vars]
  constructor
  · intro hc u hu v hv
    exact (hw u v).1 (hc _ (h.vars₂.mem_iff.2 (List.mem_map_of_mem hu)) _ (h.vars₂.mem_iff.2 (List.mem_map_of_mem hv)))
  · intro hc w hw' z hz
    obtain ⟨u, hu, rfl⟩ := List.mem_map.1 (h.vars₂.mem_iff.1 hw')
    obtain ⟨v, hv, rfl⟩ := List.mem_map.1 (h.vars₂.mem_iff.1 hz)
    exact (hw u v).2 (hc u hu v hv)

/-! ### Changes -/

variable [LinearOrder K] [IsStrictOrderedRing K]

theorem SameCpds.set (h : SameCpds f φ N dom c c₂) (hf : Injective f) {v : V} {a : Cpd V S K} {b : Cpd V₂ S₂ K}
    (hab : SameCpd f φ N dom v a b) : SameCpds f φ N dom (setCpd c v a) (setCpd c₂ (f v) b) where
  vars := by rw [setCpd_vars, h.vars]
  nodup := h.nodup
  vars₂ := by rw [setCpd_vars]; exact h.vars₂
  each := by
    intro w a' b' ha hb
    rw [lookup_setCpd] at ha hb
    by_cases hw : w = v
    · subst hw
      rw [if_pos rfl, Option.map_eq_some_iff] at ha hb
      obtain ⟨_, -, rfl⟩ := ha
      obtain ⟨_, -, rfl⟩ := hb
      exact hab
    · rw [if_neg hw] at ha
      rw [if_neg fun e => hw (hf e)] at hb
      exact h.each w a' b' ha hb

end

variable [LinearOrder K] [IsStrictOrderedRing K]
variable {bn : List (V × Frame V S K)} {bn₂ : List (V₂ × Frame V₂ S₂ K)}

theorem SameNet.domOf (h : SameNet f φ bn bn₂) (hbn : Fitted bn) (hbn₂ : Fitted bn₂) :
    ∀ v ∈ bn.map Prod.fst, (domOf bn₂ (f v)).Perm ((domOf bn v).map (φ v)) := by
  intro v hv
  obtain ⟨F, hF⟩ := (lookup_isSome_iff bn v).2 hv
  obtain ⟨F₂, hF₂⟩ := (lookup_isSome_iff bn₂ (f v)).2 (h.nodes.mem_iff.2 (List.mem_map_of_mem hv))
  unfold BBN.domOf
  rw [hF, hF₂]
  exact h.states v F F₂ (lookup_mem hF) (lookup_mem hF₂)

theorem SameNet.cpdsOf (h : SameNet f φ bn bn₂) (hbn : Fitted bn) :
    SameCpds f φ (bn.map Prod.fst) (BBN.domOf bn) (cpdsOf bn) (cpdsOf bn₂) where
  vars := cpdsOf_vars bn
  nodup := hbn.nodup
  vars₂ := by rw [cpdsOf_vars]; exact h.nodes
  each := by
    intro v a b ha hb
    obtain ⟨⟨u, F⟩, hF, e⟩ := List.mem_map.1 (lookup_mem ha)
    obtain ⟨⟨w, F₂⟩, hF₂, e₂⟩ := List.mem_map.1 (lookup_mem hb)
    simp only [Prod.mk.injEq] at e e₂
    obtain ⟨rfl, rfl⟩ := e
    obtain ⟨rfl, rfl⟩ := e₂
    refine ⟨?_, h.parents u F F₂ hF hF₂, h.probs u F F₂ hF hF₂⟩
    ext t
    simp only [List.mem_toFinset, Finset.mem_image, (h.states u F F₂ hF hF₂).mem_iff, List.mem_map]

/-- Two distributions that are the same, up to names. -/
def SameDist (g : S → S₂) (d : Dist S K) (d₂ : Dist S₂ K) : Prop := d₂.keys = d.keys.image g ∧ ∀ s ∈ d.keys, d₂.val (g s) = d.val s

theorem SameDist.isDist {g : S → S₂} (hg : Injective g) {d : Dist S K} {d₂ : Dist S₂ K} (h : SameDist g d d₂) {st : Finset S} :
    d₂.IsDist (st.image g) ↔ d.IsDist st := by
  have hsum : ∑ s ∈ d₂.keys, d₂.val s = ∑ s ∈ d.keys, d.val s := by
    rw [h.1, Finset.sum_image fun a _ b _ e => hg e]
    exact Finset.sum_congr rfl h.2
  constructor
  · rintro ⟨h1, h2, h3⟩
    refine ⟨Finset.image_injective hg (h.1.symm.trans h1), by rw [← hsum, h2], fun s hs => ?_⟩
    rw [← h.2 s hs]
    exact h3 _ (h.1 ▸ Finset.mem_image_of_mem g hs)
  · rintro ⟨h1, h2, h3⟩
    refine ⟨by rw [h.1, h1], by rw [hsum, h2], fun t ht => ?_⟩
    rw [h.1, Finset.mem_image] at ht
    obtain ⟨s, hs, rfl⟩ := ht
    rw [h.2 s hs]
    exact h3 s hs

theorem SameDist.cpd {N : List V} {dom : V → List S} {v : V} (hv : v ∈ N) (hg : Injective (φ v)) {d : Dist S K} {d₂ : Dist S₂ K}
    (h : SameDist (φ v) d d₂) : SameCpd f φ N dom v (interventionCpd V d) (interventionCpd V₂ d₂) where
  states := h.1
  parents := List.Perm.refl _
  probs := by
    intro x y hxy _
    rw [hxy v hv]
    simp only [interventionCpd, h.1, Finset.mem_image, hg.eq_iff, exists_eq_right]
    by_cases hs : x v ∈ d.keys
    · rw [if_pos hs, if_pos hs, h.2 _ hs]
    · rw [if_neg hs, if_neg hs]

/-- Two engines in the same state, up to names. -/
structure SameEngine (f : V → V₂) (φ : V → S → S₂) (bn : List (V × Frame V S K)) (bn₂ : List (V₂ × Frame V₂ S₂ K)) (e : Engine V S K)
    (e₂ : Engine V₂ S₂ K) : Prop where
  inv : e.Inv bn
  inv₂ : e₂.Inv bn₂
  same : SameCpds f φ (bn.map Prod.fst) (BBN.domOf bn) e.cpds e₂.cpds

theorem Engine.Inv.do_label {e : Engine V S K} (hi : e.Inv bn) {v : V} (hp : IsParent e.cpds v) (s : S) :
    e.doIntervention v (.label false s) = (e, .error .attributeError) := by
  unfold Engine.doIntervention
  rw [if_neg (by simp [(hi.any_iff v).2 hp])]

section
variable {e : Engine V S K} {e₂ : Engine V₂ S₂ K}

theorem SameEngine.doIt (hb : Fitted bn) (hb₂ : Fitted bn₂) (hN : SameNet f φ bn bn₂) (h : SameEngine f φ bn bn₂ e e₂) (v : V)
    {a : DoArg S K} {a₂ : DoArg S₂ K} (ha : RenamedArg (φ v) a a₂) :
    (e₂.doIntervention (f v) a₂).2 = (e.doIntervention v a).2 ∧
      SameEngine f φ bn bn₂ (e.doIntervention v a).1 (e₂.doIntervention (f v) a₂).1 := by
  have hpar := h.same.isParent hN.inj v
  by_cases hp : IsParent e.cpds v
  swap
  · rcases h.inv.do_cases hb v a with ⟨err, e1, e2, -⟩ | ⟨_, _, _, _, _, _, hp', _⟩
    swap
    · exact absurd hp' hp
    rcases h.inv₂.do_cases hb₂ (f v) a₂ with ⟨err₂, e3, e4, -⟩ | ⟨_, _, _, _, _, _, hp', _⟩
    swap
    · exact absurd (hpar.1 hp') hp
    rw [e1, e3]
    rcases e2 with rfl | ⟨-, h', -⟩
    swap
    · exact absurd h' hp
    rcases e4 with rfl | ⟨-, h', -⟩
    swap
    · exact absurd (hpar.1 h') hp
    exact ⟨rfl, h⟩
  by_cases hfalse : ∃ s, a = .label false s
  · obtain ⟨s, rfl⟩ := hfalse
    cases ha
    rw [h.inv.do_label hp, h.inv₂.do_label (hpar.2 hp)]
    exact ⟨rfl, h⟩
  have hfalse₂ : ¬ ∃ s, a₂ = .label false s := by
    rintro ⟨s, rfl⟩
    cases ha
    exact hfalse ⟨_, rfl⟩
  have hv : v ∈ bn.map Prod.fst := by
    rw [← h.inv.vars]; exact h.inv.isParent_mem hb hp
  obtain ⟨ca, cb, hca, hcb, hcab⟩ := h.same.lookup_both hv
  obtain ⟨oa, ob, hoa, hob, hoab⟩ := (hN.cpdsOf hb).lookup_both hv
  obtain ⟨d, d₂, hd, hd₂, hdd⟩ : ∃ d d₂, e.argDist v a = some d ∧ e₂.argDist (f v) a₂ = some d₂ ∧ SameDist (φ v) d d₂ := by
    cases ha with
    | label b s =>
      cases b with
      | false => exact absurd ⟨s, rfl⟩ hfalse
      | true =>
        refine ⟨_, _, by rw [Engine.argDist, hca]; rfl, by rw [Engine.argDist, hcb]; rfl, hcab.states, fun t _ => ?_⟩
        simp only [(hN.inj_states v).eq_iff]
    | dist d d₂ h1 h2 => exact ⟨d, d₂, rfl, rfl, h1, h2⟩
  have hiff : d₂.IsDist ob.states ↔ d.IsDist oa.states := by
    rw [hoab.states]; exact hdd.isDist (hN.inj_states v)
  rw [← h.inv.orig_eq] at hoa
  rw [← h.inv₂.orig_eq] at hob
  rcases h.inv.do_cases hb v a with ⟨err, e1, e2, e3⟩ | ⟨d', c', e', k1, k2, k3, -, k5, k6, k7⟩
  · rcases h.inv₂.do_cases hb₂ (f v) a₂ with ⟨err₂, e4, e5, -⟩ | ⟨d', c', e', k1, k2, k3, _⟩
    · rw [e1, e4]
      rcases e2 with rfl | ⟨-, -, h'⟩
      swap
      · exact absurd h' hfalse
      rcases e5 with rfl | ⟨-, -, h'⟩
      swap
      · exact absurd h' hfalse₂
      exact ⟨rfl, h⟩
    · rw [hd₂] at k1
      rw [hob] at k2
      cases k1; cases k2
      exact absurd ⟨hp, d, oa, hd, hoa, hiff.1 k3⟩ e3
  · rw [hd] at k1
    rw [hoa] at k2
    cases k1; cases k2
    rcases h.inv₂.do_cases hb₂ (f v) a₂ with ⟨err₂, -, -, e6⟩ | ⟨d', c', e'₂, l1, l2, l3, -, l5, l6, l7⟩
    · exact absurd ⟨hpar.2 hp, d₂, ob, hd₂, hob, hiff.2 k3⟩ e6
    · rw [hd₂] at l1
      cases l1
      rw [k5, l5]
      refine ⟨rfl, k6, l6, ?_⟩
      simp only
      rw [k7, l7]
      exact h.same.set hN.inj (hdd.cpd hv (hN.inj_states v))

theorem SameEngine.reset (hb : Fitted bn) (hb₂ : Fitted bn₂) (hN : SameNet f φ bn bn₂) (h : SameEngine f φ bn bn₂ e e₂) (v : V) :
    (e₂.resetDo (f v)).2 = (e.resetDo v).2 ∧ SameEngine f φ bn bn₂ (e.resetDo v).1 (e₂.resetDo (f v)).1 := by
  have hmem : f v ∈ bn₂.map Prod.fst ↔ v ∈ bn.map Prod.fst := by
    rw [hN.nodes.mem_iff, List.mem_map_of_injective hN.inj]
  rcases h.inv.reset_cases hb v with ⟨h1, h2⟩ | ⟨h1, c, e', h3, h4, h5, h6⟩
  · rcases h.inv₂.reset_cases hb₂ (f v) with ⟨h1', h2'⟩ | ⟨h1', _⟩
    · rw [h2, h2']; exact ⟨rfl, h⟩
    · exact absurd (hmem.1 h1') h1
  · rcases h.inv₂.reset_cases hb₂ (f v) with ⟨h1', h2'⟩ | ⟨h1', c₂, e'₂, h3', h4', h5', h6'⟩
    · exact absurd (hmem.2 h1) h1'
    · rw [h4, h4']
      refine ⟨rfl, h5, h5', ?_⟩
      simp only
      rw [h6, h6']
      rw [h.inv.orig_eq] at h3
      rw [h.inv₂.orig_eq] at h3'
      exact h.same.set hN.inj ((hN.cpdsOf hb).each v c c₂ h3 h3')

/-- The same histories leave two engines in the same state. -/
theorem SameEngine.run (hb : Fitted bn) (hb₂ : Fitted bn₂) (hN : SameNet f φ bn bn₂) (h : SameEngine f φ bn bn₂ e e₂) {nd : Nondet V}
    {nd₂ : Nondet V₂} {ops : List (Op V S K)} {ops₂ : List (Op V₂ S₂ K)} (ho : List.Forall₂ (RenamedOp f φ) ops ops₂) :
    SameEngine f φ bn bn₂ (e.run nd ops) (e₂.run nd₂ ops₂) := by
  induction ho generalizing e e₂ with
  | nil => exact h
  | cons hop _ ih =>
    refine ih ?_
    cases hop with
    | doIt v a a₂ ha => exact (h.doIt hb hb₂ hN v ha).2
    | reset v => exact (h.reset hb hb₂ hN v).2
    | query ev ev₂ => exact h

/-! ### Queries -/

omit [DecidableEq S] [DecidableEq S₂] [Field K] [LinearOrder K] [IsStrictOrderedRing K] [LinearOrder V] [LinearOrder V₂] in
theorem sameWorld_exists (hf : Injective f) (v₀ : V) (N : List V) (x : V → S) : ∃ y, SameWorld f φ N x y :=
  ⟨extend f (fun v => φ v (x v)) fun _ => φ v₀ (x v₀), fun v _ => hf.extend_apply _ _ v⟩

theorem Engine.Inv.query_bad {nd : Nondet V} (hnd : nd.Legal) (hi : e.Inv bn) (hf : Fitted bn)
    {x₀ : V → S} (hx₀ : ∀ v ∈ bn.map Prod.fst, x₀ v ∈ BBN.domOf bn v) {ev : List (V × S)} (hk : (ev.map Prod.fst).Nodup)
    (hev : ¬ ∀ p ∈ ev, p.1 ∈ bn.map Prod.fst ∧ p.2 ∈ BBN.domOf bn p.1) : ∃ err, e.query nd ev = .error err := by
  by_cases hc : Connected (netNodes e.cpds)
  swap
  · exact hi.query_disconnected hnd hf hc ev
  have hp := hi.bbn_perm hf
  have hN : IsNetwork e.dom e.bbn := (hi.network hf hc).perm hp.symm
  have hvm : ∀ v, v ∈ e.bbn.map Node.var ↔ v ∈ bn.map Prod.fst := by
    intro v
    rw [← hi.vars, ← netNodes_vars]; exact (hp.map Node.var).mem_iff
  have hx : ∀ v ∈ e.bbn.map Node.var, x₀ v ∈ e.dom v := by
    intro v hv
    rw [hi.dom_eq]
    exact hx₀ v ((hvm v).1 hv)
  push Not at hev
  obtain ⟨p, hp', h⟩ := hev
  obtain ⟨err, he⟩ := (query_raises_iff hnd hN hx hk).1.2 ⟨p, hp', by
    rw [hvm, hi.dom_eq]
    by_cases hm : p.1 ∈ bn.map Prod.fst
    · exact Or.inr (h hm)
    · exact Or.inl hm⟩
  exact ⟨err, by unfold Engine.query; rw [he]; rfl⟩

omit [DecidableEq S] [DecidableEq S₂] [Field K] [LinearOrder K] [IsStrictOrderedRing K] [LinearOrder V] [LinearOrder V₂] in
theorem Reports.renamed {dom : V → List S} {dom₂ : V₂ → List S₂} {N : List V} {N₂ : List V₂} {P : V → S → K} {P₂ : V₂ → S₂ → K}
    {out : List (V × List (S × K))} {out₂ : List (V₂ × List (S₂ × K))} (h : Reports dom N P out) (h₂ : Reports dom₂ N₂ P₂ out₂)
    (hN : N₂.Perm (N.map f)) (hd : ∀ v ∈ N, (dom₂ (f v)).Perm ((dom v).map (φ v))) (hP : ∀ v ∈ N, ∀ s, P₂ (f v) (φ v s) = P v s) :
    SameAnswer f φ out out₂ where
  nodes := by rw [h.vars, h₂.vars]; exact hN
  probs := by
    intro v l l₂ hl hl₂
    have hv : v ∈ N := h.vars ▸ List.mem_map_of_mem (f := Prod.fst) hl
    have e1 : l = (l.map Prod.fst).map fun s => (s, P v s) := by
      rw [List.map_map]
      conv_lhs => rw [← List.map_id l]
      exact List.map_congr_left fun r hr => Prod.ext rfl (h.probs _ hl r hr)
    have e2 : l₂ = (l₂.map Prod.fst).map fun s => (s, P₂ (f v) s) := by
      rw [List.map_map]
      conv_lhs => rw [← List.map_id l₂]
      exact List.map_congr_left fun r hr => Prod.ext rfl (h₂.probs _ hl₂ r hr)
    have p1 := (h.states _ hl).map (φ v)
    have p2 := ((h₂.states _ hl₂).trans (hd v hv)).trans p1.symm
    rw [e2]
    refine (p2.map fun s => (s, P₂ (f v) s)).trans ?_
    rw [List.map_map, List.map_map]
    refine List.Perm.of_eq (List.map_congr_left fun r hr => ?_)
    simp only [comp_apply]
    rw [hP v hv, h.probs _ hl r hr]

theorem SameEngine.query (hb : Fitted bn) (hb₂ : Fitted bn₂) (hN : SameNet f φ bn bn₂) (h : SameEngine f φ bn bn₂ e e₂) {nd : Nondet V}
    {nd₂ : Nondet V₂} (hnd : nd.Legal) (hnd₂ : nd₂.Legal) {x₀ : V → S} (hx₀ : ∀ v ∈ bn.map Prod.fst, x₀ v ∈ BBN.domOf bn v)
    {ev : List (V × S)} (hk : (ev.map Prod.fst).Nodup) {ev₂ : List (V₂ × S₂)} (hev : ev₂.Perm (ev.map fun q => (f q.1, φ q.1 q.2))) :
    (∃ out out₂, e.query nd ev = .ok out ∧ e₂.query nd₂ ev₂ = .ok out₂ ∧ SameAnswer f φ out out₂) ∨
      (∃ err, e.query nd ev = .error err) ∧ ∃ err, e₂.query nd₂ ev₂ = .error err := by
  have hdom := hN.domOf hb hb₂
  have hk₂ : (ev₂.map Prod.fst).Nodup := by
    rw [(hev.map Prod.fst).nodup_iff, List.map_map]
    have := hk.map hN.inj
    rwa [List.map_map] at this
  obtain ⟨q₀, hq₀⟩ := List.exists_mem_of_ne_nil bn (by
    rintro rfl
    exact hb.nonempty rfl)
  obtain ⟨y₀, hy₀⟩ := sameWorld_exists (φ := φ) hN.inj q₀.1 (bn.map Prod.fst) x₀
  have hy₀' : ∀ w ∈ bn₂.map Prod.fst, y₀ w ∈ BBN.domOf bn₂ w := by
    intro w hw
    obtain ⟨v, hv, rfl⟩ := List.mem_map.1 (hN.nodes.mem_iff.1 hw)
    rw [hy₀ v hv, (hdom v hv).mem_iff]
    exact List.mem_map_of_mem (hx₀ v hv)
  have hgood : (∀ p ∈ ev₂, p.1 ∈ bn₂.map Prod.fst ∧ p.2 ∈ BBN.domOf bn₂ p.1) ↔
      ∀ p ∈ ev, p.1 ∈ bn.map Prod.fst ∧ p.2 ∈ BBN.domOf bn p.1 := by
    have h1 : ∀ p : V × S, (f p.1 ∈ bn₂.map Prod.fst ∧ φ p.1 p.2 ∈ BBN.domOf bn₂ (f p.1)) ↔
        p.1 ∈ bn.map Prod.fst ∧ p.2 ∈ BBN.domOf bn p.1 := by
      intro p
      rw [hN.nodes.mem_iff, List.mem_map_of_injective hN.inj]
      refine and_congr_right fun hp => ?_
      rw [(hdom _ hp).mem_iff, List.mem_map_of_injective (hN.inj_states _)]
    constructor
    · intro h' p hp
      exact (h1 p).1 (h' _ (hev.mem_iff.2 (List.mem_map_of_mem hp)))
    · intro h' q hq
      obtain ⟨p, hp, rfl⟩ := List.mem_map.1 (hev.mem_iff.1 hq)
      exact (h1 p).2 (h' p hp)
  by_cases hg : ∀ p ∈ ev, p.1 ∈ bn.map Prod.fst ∧ p.2 ∈ BBN.domOf bn p.1
  swap
  · exact Or.inr ⟨h.inv.query_bad hnd hb hx₀ hk hg, h.inv₂.query_bad hnd₂ hb₂ hy₀' hk₂ fun h' => hg (hgood.1 h')⟩
  by_cases hc : Connected (netNodes e.cpds)
  swap
  · exact Or.inr ⟨h.inv.query_disconnected hnd hb hc ev, h.inv₂.query_disconnected hnd₂ hb₂ (fun h' => hc ((h.same.connected hN.inj).1 h')) ev₂⟩
  left
  obtain ⟨out, ho, hr⟩ := h.inv.query_answers hnd hb hc hx₀ hk hg
  obtain ⟨out₂, ho₂, hr₂⟩ := h.inv₂.query_answers hnd₂ hb₂ ((h.same.connected hN.inj).2 hc) hy₀' hk₂ (hgood.2 hg)
  have hA : ∀ x y, SameWorld f φ (bn.map Prod.fst) x y → (Agrees ev₂ y ↔ Agrees ev x) := by
    intro x y hxy
    constructor
    · intro h' p hp
      have := h' _ (hev.mem_iff.2 (List.mem_map_of_mem hp))
      simp only [hxy _ (hg p hp).1] at this
      exact hN.inj_states _ this
    · intro h' q hq
      obtain ⟨p, hp, rfl⟩ := List.mem_map.1 (hev.mem_iff.1 hq)
      simp only [hxy _ (hg p hp).1, h' p hp]
  refine ⟨out, out₂, ho, ho₂, hr.renamed hr₂ hN.nodes hdom fun v hv s => ?_⟩
  rw [h.same.massOf hN.inj hdom hA hy₀ hx₀, h.same.massOf hN.inj hdom (A := fun x => Agrees ev x ∧ x v = s) ?_ hy₀ hx₀]
  intro x y hxy
  rw [hA x y hxy, hxy v hv, (hN.inj_states v).eq_iff]

/-- **C139**: two networks that differ only in the names of their nodes and states answer alike.  After the same history of interventions,
resets and queries, the next intervention or reset is accepted or rejected alike, with the same kind of exception, and the next query either
raises for both or gives the same answer. -/
theorem rename_answers (hb : Fitted bn) (hb₂ : Fitted bn₂) (hN : SameNet f φ bn bn₂) {okName : V → Bool} {okName₂ : V₂ → Bool}
    (he : Engine.create okName bn = .ok e) (he₂ : Engine.create okName₂ bn₂ = .ok e₂) {nd : Nondet V} {nd₂ : Nondet V₂} (hnd : nd.Legal)
    (hnd₂ : nd₂.Legal) {x₀ : V → S} (hx₀ : ∀ v ∈ bn.map Prod.fst, x₀ v ∈ BBN.domOf bn v) {ops : List (Op V S K)}
    {ops₂ : List (Op V₂ S₂ K)} (ho : List.Forall₂ (RenamedOp f φ) ops ops₂) :
    (∀ v a a₂, RenamedArg (φ v) a a₂ →
      ((e₂.run nd₂ ops₂).doIntervention (f v) a₂).2 = ((e.run nd ops).doIntervention v a).2) ∧
    (∀ v, ((e₂.run nd₂ ops₂).resetDo (f v)).2 = ((e.run nd ops).resetDo v).2) ∧
    ∀ (ev : List (V × S)) (ev₂ : List (V₂ × S₂)), (ev.map Prod.fst).Nodup → ev₂.Perm (ev.map fun q => (f q.1, φ q.1 q.2)) →
      (∃ out out₂, (e.run nd ops).query nd ev = .ok out ∧ (e₂.run nd₂ ops₂).query nd₂ ev₂ = .ok out₂ ∧ SameAnswer f φ out out₂) ∨
        (∃ err, (e.run nd ops).query nd ev = .error err) ∧ ∃ err, (e₂.run nd₂ ops₂).query nd₂ ev₂ = .error err := by
  obtain ⟨h1, h2⟩ := Engine.create_inv hb he
  obtain ⟨h3, h4⟩ := Engine.create_inv hb₂ he₂
  have h0 : SameEngine f φ bn bn₂ e e₂ := ⟨h1, h3, by rw [h2, h4]; exact hN.cpdsOf hb⟩
  have h := h0.run hb hb₂ hN (nd := nd) (nd₂ := nd₂) ho
  exact ⟨fun v a a₂ ha => (h.doIt hb hb₂ hN v ha).1, fun v => (h.reset hb hb₂ hN v).1,
    fun ev ev₂ hk hev => h.query hb hb₂ hN hnd hnd₂ hx₀ hk hev⟩

end

end
end Verif.BBN
