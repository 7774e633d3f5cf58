import Verif.Network.ToEngine
import Verif.BBN.Rename

/-!
# C139: names of nodes and states make no difference, from data to answers
-/

namespace Verif.Network

open Verif.BBN (lookup_mem lookup_of_mem_nodup lookup_isSome_iff Frame Fitted netNodes cpdsOf domOf SameNet SameWorld)
open Function

section
variable {V S V₂ S₂ K : Type} [LinearOrder V] [LinearOrder S] [LinearOrder V₂] [LinearOrder S₂] [Field K]

/-- Specification: structure, states and data of the second network are those of the first, with other names for nodes (`f`) and states
(`φ`).  Edges, states and rows may be listed in another order, and there may be further columns. -/
structure SameInput (f : V → V₂) (φ : V → S → S₂) (E : List (V × V)) (net : Net V S K) (df : DF V S) (E₂ : List (V₂ × V₂))
    (net₂ : Net V₂ S₂ K) (df₂ : DF V₂ S₂) : Prop where
  inj : Injective f
  inj_states : ∀ v, Injective (φ v)
  edges : E₂.Perm (E.map fun e => (f e.1, f e.2))
  states : ∀ v ∈ net.nodes, (statesOf net₂ (f v)).Perm ((statesOf net v).map (φ v))
  cols : ∀ v ∈ net.nodes, f v ∈ df₂.cols
  rows : ∃ l, df₂.rows.Perm l ∧ List.Forall₂ (fun r r₂ => ∀ v ∈ net.nodes, r₂ (f v) = (r v).map (φ v)) df.rows l

variable {f : V → V₂} {φ : V → S → S₂} {E : List (V × V)} {E₂ : List (V₂ × V₂)} {net : Net V S K} {net₂ : Net V₂ S₂ K} {df : DF V S}
  {df₂ : DF V₂ S₂}

omit [LinearOrder S] [LinearOrder S₂] [Field K] in
theorem estimate_renamed [Field K] (a : FitArgs K) {g : S → S₂} {ks : List S} {ks₂ : List S₂} (hk : ks₂.Perm (ks.map g)) {n n₂ : ℕ}
    (hn : n₂ = n) {N : S → ℕ} {N₂ : S₂ → ℕ} (hN : ∀ s, N₂ (g s) = N s) (s : S) : estimate a ks₂ n₂ N₂ (g s) = estimate a ks n N s := by
  have h1 : (ks₂.map N₂).sum = (ks.map N).sum := by
    rw [(hk.map N₂).sum_eq, List.map_map]
    congr 1
    exact List.map_congr_left fun s _ => hN s
  have h2 : ks₂.length = ks.length := by rw [hk.length_eq, List.length_map]
  unfold estimate
  simp only [h1, h2, hn, hN]

omit [Field K] in
theorem SameInput.nodes (h : SameInput f φ E net df E₂ net₂ df₂) {ns : List V} {ns₂ : List V₂} {int : ℕ → S} {int₂ : ℕ → S₂}
    [Zero K] [One K] [Add K] [Div K] [NatCast K]
    (hE : IsStructure ns E) (hE₂ : IsStructure ns₂ E₂) (hr : Reach int ns E net) (hr₂ : Reach int₂ ns₂ E₂ net₂) :
    net₂.nodes.Perm (net.nodes.map f) := by
  rw [(hr.wf hE).nodes, (hr₂.wf hE₂).nodes, List.perm_ext_iff_of_nodup (nodesOfEdges_nodup _) ((nodesOfEdges_nodup _).map h.inj)]
  intro w
  rw [mem_nodesOfEdges, List.mem_map]
  constructor
  · rintro ⟨e, he, hw⟩
    obtain ⟨e, he', rfl⟩ := List.mem_map.1 (h.edges.mem_iff.1 he)
    rcases hw with rfl | rfl
    · exact ⟨e.1, mem_nodesOfEdges.2 ⟨e, he', Or.inl rfl⟩, rfl⟩
    · exact ⟨e.2, mem_nodesOfEdges.2 ⟨e, he', Or.inr rfl⟩, rfl⟩
  · rintro ⟨v, hv, rfl⟩
    obtain ⟨e, he, hv⟩ := mem_nodesOfEdges.1 hv
    refine ⟨(f e.1, f e.2), h.edges.mem_iff.2 (List.mem_map_of_mem he), ?_⟩
    rcases hv with rfl | rfl
    · exact Or.inl rfl
    · exact Or.inr rfl

omit [Field K] in
theorem observed_renamed (h : SameInput f φ E net df E₂ net₂ df₂) (hn : net₂.nodes.Perm (net.nodes.map f)) {v : V}
    (hv : v ∈ net.nodes) {l : List V} {l₂ : List V₂} (hl : l₂.Perm (l.map f)) (hln : ∀ p ∈ l, p ∈ net.nodes) {x : V → S} {y : V₂ → S₂}
    (hxy : SameWorld f φ net.nodes x y) (s : S) :
    observed net₂ df₂ (f v) l₂ (φ v s) (l₂.map y) = observed net df v l s (l.map x) := by
  obtain ⟨rs, h1, h2⟩ := h.rows
  unfold observed
  rw [h1.countP_eq]
  clear h1
  have hp : ∀ r r₂, (∀ v ∈ net.nodes, r₂ (f v) = (r v).map (φ v)) →
      ((Known net₂ r₂ ∧ r₂ (f v) = some (φ v s) ∧ l₂.map r₂ = (l₂.map y).map some) ↔
        (Known net r ∧ r v = some s ∧ l.map r = (l.map x).map some)) := by
    intro r r₂ hr
    have hsome : ∀ u ∈ net.nodes, ∀ t, r₂ (f u) = some (φ u t) ↔ r u = some t := by
      intro u hu t
      rw [hr u hu, ← Option.map_some, (Option.map_injective (h.inj_states u)).eq_iff]
    refine and_congr ?_ (and_congr (hsome v hv s) ?_)
    · unfold Known
      constructor
      · intro hk u hu
        obtain ⟨t, ht, e⟩ := hk (f u) (hn.mem_iff.2 (List.mem_map_of_mem hu))
        obtain ⟨s', hs', rfl⟩ := List.mem_map.1 ((h.states u hu).mem_iff.1 ht)
        exact ⟨s', hs', (hsome u hu s').1 e⟩
      · intro hk w hw
        obtain ⟨u, hu, rfl⟩ := List.mem_map.1 (hn.mem_iff.1 hw)
        obtain ⟨t, ht, e⟩ := hk u hu
        exact ⟨φ u t, (h.states u hu).mem_iff.2 (List.mem_map_of_mem ht), (hsome u hu t).2 e⟩
    · rw [List.map_map, List.map_map, List.map_inj_left, List.map_inj_left]
      constructor
      · intro hq p hp
        have := hq (f p) (hl.mem_iff.2 (List.mem_map_of_mem hp))
        rw [comp_apply, hxy p (hln p hp)] at this
        exact (hsome p (hln p hp) _).1 this
      · intro hq w hw
        obtain ⟨p, hp, rfl⟩ := List.mem_map.1 (hl.mem_iff.1 hw)
        rw [comp_apply, hxy p (hln p hp)]
        exact (hsome p (hln p hp) _).2 (hq p hp)
  generalize df.rows = rows at h2
  induction h2 with
  | nil => rfl
  | cons hr _ ih =>
    rw [List.countP_cons, List.countP_cons, ih]
    simp only [hp _ _ hr]

/-- **C139**: fitting a network to the same data under other names succeeds as well, and gives the same conditional probabilities under
these names. -/
theorem fit_renamed {int : ℕ → S} (hint : Injective int) {int₂ : ℕ → S₂} (hint₂ : Injective int₂) {ns : List V} {ns₂ : List V₂}
    (hE : IsStructure ns E) (hEne : E ≠ []) (hE₂ : IsStructure ns₂ E₂) (hr : Reach int ns E net) (hr₂ : Reach int₂ ns₂ E₂ net₂)
    (hne : ∀ v ∈ net.nodes, statesOf net v ≠ []) (hs : SameInput f φ E net df E₂ net₂ df₂) {h h' : Heap V S} {h₂ : Heap V₂ S₂}
    {ref ref₂ : ℕ} (hdf : h[ref]? = some df) (hdf₂ : h₂[ref₂]? = some df₂) {a : FitArgs K} {net' : Net V S K}
    (hf : fitCpds int net h ref a = (net', h', .ok ())) :
    ∃ net₂' h₂' tables tables₂, fitCpds int₂ net₂ h₂ ref₂ a = (net₂', h₂', .ok ()) ∧ cpds net' = .ok tables ∧
      cpds net₂' = .ok tables₂ ∧ SameNet f φ (framesOf tables) (framesOf tables₂) := by
  have hn := hs.nodes hE hE₂ hr hr₂
  have hne₂ : ∀ w ∈ net₂.nodes, statesOf net₂ w ≠ [] := by
    intro w hw
    obtain ⟨v, hv, rfl⟩ := List.mem_map.1 (hn.mem_iff.1 hw)
    intro e
    have := (hs.states v hv).length_eq
    rw [e, List.length_map] at this
    exact hne v hv (List.eq_nil_of_length_eq_zero this.symm)
  have hok : (fitCpds int net h ref a).2.2 = .ok () := by rw [hf]
  rw [fit_ok_iff hE hr hdf] at hok
  have hok₂ : (fitCpds int₂ net₂ h₂ ref₂ a).2.2 = .ok () := by
    rw [fit_ok_iff hE₂ hr₂ hdf₂]
    refine ⟨fun e => ?_, fun w hw => ?_, hok.2.2⟩
    · obtain ⟨e', he'⟩ := List.exists_mem_of_ne_nil E hEne
      have hm : e'.1 ∈ net.nodes := by
        rw [(hr.wf hE).nodes]
        exact mem_nodesOfEdges.2 ⟨e', he', Or.inl rfl⟩
      apply hne₂ (f e'.1) (hn.mem_iff.2 (List.mem_map_of_mem hm))
      rw [statesOf, e]
    · obtain ⟨v, hv, rfl⟩ := List.mem_map.1 (hn.mem_iff.1 hw)
      exact hs.cols v hv
  have hf₂ : fitCpds int₂ net₂ h₂ ref₂ a = ((fitCpds int₂ net₂ h₂ ref₂ a).1, (fitCpds int₂ net₂ h₂ ref₂ a).2.1, .ok ()) := by
    rw [← hok₂]
  obtain ⟨-, -, -, tables, h1, h2, h3⟩ := fit_cpds_correct hint hE hr hne hdf hf
  obtain ⟨-, -, -, tables₂, k1, k2, k3⟩ := fit_cpds_correct hint₂ hE₂ hr₂ hne₂ hdf₂ hf₂
  have hfr : (framesOf tables).map Prod.fst = net.nodes := by rw [← h2, framesOf, List.map_map]; rfl
  have hfr₂ : (framesOf tables₂).map Prod.fst = net₂.nodes := by rw [← k2, framesOf, List.map_map]; rfl
  have hdom : ∀ v ∈ net.nodes, domOf (framesOf tables) v = statesOf net v := by
    intro v hv
    obtain ⟨F, hF⟩ := (lookup_isSome_iff (framesOf tables) v).2 (hfr.symm ▸ hv)
    rw [domOf, hF]
    obtain ⟨⟨u, t⟩, ht, e⟩ := List.mem_map.1 (lookup_mem hF)
    simp only [Prod.mk.injEq] at e
    obtain ⟨rfl, rfl⟩ := e
    exact (h3 u t ht).1
  have hpar : ∀ v t t₂, (v, t) ∈ tables → (f v, t₂) ∈ tables₂ → t₂.parents.Perm (t.parents.map f) := by
    intro v t t₂ ht ht₂
    have p1 := (h3 v t ht).2.1
    have p2 := (k3 (f v) t₂ ht₂).2.1
    have n1 : t.parents.Nodup := p1.1.imp fun h => ne_of_lt h
    rw [List.perm_ext_iff_of_nodup (p2.1.imp fun h => ne_of_lt h) (n1.map hs.inj)]
    intro w
    rw [p2.2, hs.edges.mem_iff, List.mem_map, List.mem_map]
    constructor
    · rintro ⟨e, he, hw⟩
      simp only [Prod.mk.injEq] at hw
      have := hs.inj hw.2
      exact ⟨e.1, (p1.2 e.1).2 (by rw [← this]; exact he), hw.1⟩
    · rintro ⟨u, hu, rfl⟩
      exact ⟨(u, v), (p1.2 u).1 hu, rfl⟩
  have hpn : ∀ v t, (v, t) ∈ tables → ∀ p ∈ t.parents, p ∈ net.nodes := by
    intro v t ht p hp
    rw [(hr.wf hE).nodes]
    exact mem_nodesOfEdges.2 ⟨_, ((h3 v t ht).2.1.2 p).1 hp, Or.inl rfl⟩
  refine ⟨_, _, tables, tables₂, hf₂, h1, k1, hs.inj, hs.inj_states, by rw [hfr, hfr₂]; exact hn, ?_, ?_, ?_⟩
  · intro v F F₂ hF hF₂
    obtain ⟨⟨u, t⟩, ht, e⟩ := List.mem_map.1 hF
    obtain ⟨⟨w, t₂⟩, ht₂, e₂⟩ := List.mem_map.1 hF₂
    simp only [Prod.mk.injEq] at e e₂
    obtain ⟨rfl, rfl⟩ := e
    obtain ⟨rfl, rfl⟩ := e₂
    rw [(h3 u t ht).1, (k3 (f u) t₂ ht₂).1]
    exact hs.states u (h2 ▸ List.mem_map_of_mem (f := Prod.fst) ht)
  · intro v F F₂ hF hF₂
    obtain ⟨⟨u, t⟩, ht, e⟩ := List.mem_map.1 hF
    obtain ⟨⟨w, t₂⟩, ht₂, e₂⟩ := List.mem_map.1 hF₂
    simp only [Prod.mk.injEq] at e e₂
    obtain ⟨rfl, rfl⟩ := e
    obtain ⟨rfl, rfl⟩ := e₂
    exact hpar u t t₂ ht ht₂
  · intro v F F₂ hF hF₂ x y hxy hx
    rw [hfr] at hxy hx
    obtain ⟨⟨u, t⟩, ht, e⟩ := List.mem_map.1 hF
    obtain ⟨⟨w, t₂⟩, ht₂, e₂⟩ := List.mem_map.1 hF₂
    simp only [Prod.mk.injEq] at e e₂
    obtain ⟨rfl, rfl⟩ := e
    obtain ⟨rfl, rfl⟩ := e₂
    have hu : u ∈ net.nodes := h2 ▸ List.mem_map_of_mem (f := Prod.fst) ht
    have hpp := hpar u t t₂ ht ht₂
    have hxs : ∀ w ∈ net.nodes, x w ∈ statesOf net w := fun w hw => hdom w hw ▸ hx w hw
    have hys : ∀ w ∈ net.nodes, y (f w) ∈ statesOf net₂ (f w) := by
      intro w hw
      rw [hxy w hw, (hs.states w hw).mem_iff]
      exact List.mem_map_of_mem (hxs w hw)
    have c1 : IsConfig net t.parents (t.parents.map x) := by
      rw [IsConfig, List.forall₂_map_left_iff, List.forall₂_same]
      exact fun p hp => hxs p (hpn u t ht p hp)
    have c2 : IsConfig net₂ t₂.parents (t₂.parents.map y) := by
      rw [IsConfig, List.forall₂_map_left_iff, List.forall₂_same]
      intro w hw
      obtain ⟨p, hp, rfl⟩ := List.mem_map.1 (hpp.mem_iff.1 hw)
      exact hys p (hpn u t ht p hp)
    simp only
    rw [(h3 u t ht).2.2.2.2 _ (hxs u hu) _ c1, (k3 (f u) t₂ ht₂).2.2.2.2 _ (hys u hu) _ c2, Option.getD_some, Option.getD_some, hxy u hu]
    refine estimate_renamed a (hs.states u hu) ?_ (fun s => observed_renamed hs hn hu hpp (hpn u t ht) hxy s) (x u)
    rw [(hpp.map _).prod_eq, List.map_map]
    congr 1
    refine List.map_congr_left fun p hp => ?_
    rw [comp_apply, (hs.states p (hpn u t ht p hp)).length_eq, List.length_map]

variable [LinearOrder K] [IsStrictOrderedRing K]

/-- **C139**: the whole way from data to answers.  If structure, states, data and all operations are given under other names, then fitting
succeeds as well, and engines built from the two networks answer alike. -/
theorem pipeline_renamed {int : ℕ → S} (hint : Injective int) {int₂ : ℕ → S₂} (hint₂ : Injective int₂) {ns : List V} {ns₂ : List V₂}
    (hE : IsStructure ns E) (hEne : E ≠ []) (hE₂ : IsStructure ns₂ E₂) (hr : Reach int ns E net) (hr₂ : Reach int₂ ns₂ E₂ net₂)
    (hne : ∀ v ∈ net.nodes, statesOf net v ≠ []) (hs : SameInput f φ E net df E₂ net₂ df₂) {h h' : Heap V S} {h₂ : Heap V₂ S₂}
    {ref ref₂ : ℕ} (hdf : h[ref]? = some df) (hdf₂ : h₂[ref₂]? = some df₂) {a : FitArgs K} (hess : ∀ n, a.ess = some n → 0 < n)
    {net' : Net V S K} (hf : fitCpds int net h ref a = (net', h', .ok ())) {okName : V → Bool} {okName₂ : V₂ → Bool}
    (hok : ∀ v ∈ net.nodes, okName v = true) (hok₂ : ∀ v ∈ net₂.nodes, okName₂ v = true) {nd : BBN.Nondet V} {nd₂ : BBN.Nondet V₂}
    (hnd : nd.Legal) (hnd₂ : nd₂.Legal) :
    ∃ net₂' h₂' tables tables₂ e e₂, fitCpds int₂ net₂ h₂ ref₂ a = (net₂', h₂', .ok ()) ∧ cpds net' = .ok tables ∧
      cpds net₂' = .ok tables₂ ∧ BBN.Engine.create okName (framesOf tables) = .ok e ∧
      BBN.Engine.create okName₂ (framesOf tables₂) = .ok e₂ ∧
      ∀ (ops : List (BBN.Op V S K)) (ops₂ : List (BBN.Op V₂ S₂ K)), List.Forall₂ (BBN.RenamedOp f φ) ops ops₂ →
        (∀ v b b₂, BBN.RenamedArg (φ v) b b₂ →
          ((e₂.run nd₂ ops₂).doIntervention (f v) b₂).2 = ((e.run nd ops).doIntervention v b).2) ∧
        (∀ v, ((e₂.run nd₂ ops₂).resetDo (f v)).2 = ((e.run nd ops).resetDo v).2) ∧
        ∀ (ev : List (V × S)) (ev₂ : List (V₂ × S₂)), (ev.map Prod.fst).Nodup → ev₂.Perm (ev.map fun q => (f q.1, φ q.1 q.2)) →
          (∃ out out₂, (e.run nd ops).query nd ev = .ok out ∧ (e₂.run nd₂ ops₂).query nd₂ ev₂ = .ok out₂ ∧
            BBN.SameAnswer f φ out out₂) ∨
          (∃ err, (e.run nd ops).query nd ev = .error err) ∧ ∃ err, (e₂.run nd₂ ops₂).query nd₂ ev₂ = .error err := by
  obtain ⟨net₂', h₂', tables, tables₂, hf₂, hc, hc₂, hN⟩ := fit_renamed hint hint₂ hE hEne hE₂ hr hr₂ hne hs hdf hdf₂ hf
  have hn := hs.nodes hE hE₂ hr hr₂
  have hne₂ : ∀ w ∈ net₂.nodes, statesOf net₂ w ≠ [] := by
    intro w hw
    obtain ⟨v, hv, rfl⟩ := List.mem_map.1 (hn.mem_iff.1 hw)
    intro e
    have := (hs.states v hv).length_eq
    rw [e, List.length_map] at this
    exact hne v hv (List.eq_nil_of_length_eq_zero this.symm)
  have hEne₂ : E₂ ≠ [] := by
    rintro rfl
    have := hs.edges.length_eq
    rw [List.length_map, List.length_nil] at this
    exact hEne (List.eq_nil_of_length_eq_zero this.symm)
  obtain ⟨t1, c1, n1, f1⟩ := fitted_is_network hint hE hEne hr hne hess hf
  obtain ⟨t2, c2, n2, f2⟩ := fitted_is_network hint₂ hE₂ hEne₂ hr₂ hne₂ hess hf₂
  rw [hc] at c1
  rw [hc₂] at c2
  cases c1; cases c2
  have hfr : (framesOf tables).map Prod.fst = net.nodes := by rw [← n1, framesOf, List.map_map]; rfl
  have hfr₂ : (framesOf tables₂).map Prod.fst = net₂.nodes := by rw [← n2, framesOf, List.map_map]; rfl
  obtain ⟨e, he, -⟩ := BBN.Engine.create_ok f1 (okName := okName) fun q hq => hok _ (hfr ▸ List.mem_map_of_mem (f := Prod.fst) hq)
  obtain ⟨e₂, he₂, -⟩ := BBN.Engine.create_ok f2 (okName := okName₂) fun q hq => hok₂ _ (hfr₂ ▸ List.mem_map_of_mem (f := Prod.fst) hq)
  have hx : ∃ x₀ : V → S, ∀ v ∈ (framesOf tables).map Prod.fst, x₀ v ∈ domOf (framesOf tables) v := by
    obtain ⟨-, -, -, tables', h1, h2, h3⟩ := fit_cpds_correct hint hE hr hne hdf hf
    rw [hc] at h1
    cases h1
    have key : ∀ v ∈ net.nodes, domOf (framesOf tables) v ≠ [] := by
      intro v hv
      obtain ⟨F, hF⟩ := (lookup_isSome_iff (framesOf tables) v).2 (hfr.symm ▸ hv)
      rw [domOf, hF]
      obtain ⟨⟨u, t⟩, ht, e⟩ := List.mem_map.1 (lookup_mem hF)
      simp only [Prod.mk.injEq] at e
      obtain ⟨rfl, rfl⟩ := e
      simp only
      rw [(h3 u t ht).1]
      exact hne u hv
    refine ⟨fun v => (domOf (framesOf tables) v).headD (int 0), fun v hv => ?_⟩
    obtain ⟨s, l, hl⟩ := List.exists_cons_of_ne_nil (key v (hfr ▸ hv))
    simp [hl]
  obtain ⟨x₀, hx₀⟩ := hx
  exact ⟨net₂', h₂', tables, tables₂, e, e₂, hf₂, hc, hc₂, he, he₂,
    fun ops ops₂ ho => BBN.rename_answers f1 f2 hN he he₂ hnd hnd₂ hx₀ ho⟩

end

end Verif.Network
