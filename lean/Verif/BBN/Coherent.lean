import Verif.BBN.PropsAct

/-!
# C108: answers to different queries fit together
-/

namespace Verif.BBN
open Function Graph

section
variable {V S K : Type} [LinearOrder V] [DecidableEq S] [Field K] [LinearOrder K] [IsStrictOrderedRing K]

/-- The answer to a query with any evidence; for impossible evidence all probabilities are zero, as `x / 0 = 0`. -/
theorem Engine.Inv.query_answers {nd : Nondet V} (hnd : nd.Legal) {bn : List (V × Frame V S K)}
    {e : Engine V S K} (hi : e.Inv bn) (hf : Fitted bn) (hc : Connected (netNodes e.cpds))
    {x₀ : V → S} (hx₀ : ∀ v ∈ bn.map Prod.fst, x₀ v ∈ domOf bn v)
    {ev : List (V × S)} (hk : (ev.map Prod.fst).Nodup)
    (hev : ∀ p ∈ ev, p.1 ∈ bn.map Prod.fst ∧ p.2 ∈ domOf bn p.1) :
    ∃ out, e.query nd ev = .ok out ∧ Reports (domOf bn) (bn.map Prod.fst)
      (fun v s => massOf (domOf bn) (netNodes e.cpds) x₀ (fun x => Agrees ev x ∧ x v = s) /
        massOf (domOf bn) (netNodes e.cpds) x₀ (Agrees ev)) out := by
  have hN0 := hi.network hf hc
  have hgood : GoodEvidence e.dom (netNodes e.cpds) ev := by
    intro p hp
    rw [netNodes_vars, hi.vars, hi.dom_eq]
    exact hev p hp
  have hx : ∀ v ∈ e.cpds.map Prod.fst, x₀ v ∈ e.dom v := by
    rw [hi.vars, hi.dom_eq]; exact hx₀
  have hnn : 0 ≤ massOf e.dom (netNodes e.cpds) x₀ (Agrees ev) := by
    have h0 : massOf e.dom (netNodes e.cpds) x₀ (fun _ => False) = 0 := by
      unfold massOf
      simp
    rw [← h0]
    exact massOf_mono' hN0 (by rw [netNodes_vars]; exact hx) fun x h => h.elim
  rw [← hi.vars, ← hi.dom_eq]
  rcases hnn.lt_or_eq with hpos | hzero
  · exact hi.query_reports hnd hf hc hx hk hgood hpos
  have hp := hi.bbn_perm hf
  have hN : IsNetwork e.dom e.bbn := hN0.perm hp.symm
  have hvm : ∀ v, v ∈ e.bbn.map Node.var ↔ v ∈ e.cpds.map Prod.fst := by
    intro v
    rw [← netNodes_vars]; exact (hp.map Node.var).mem_iff
  have hev' : GoodEvidence e.dom e.bbn ev := fun p hp' =>
    ⟨(hp.map Node.var).mem_iff.2 (hgood p hp').1, (hgood p hp').2⟩
  obtain ⟨res, h1, h2, h3⟩ := query_impossible hnd hN (x₀ := x₀)
    (fun v hv => hx v ((hvm v).1 hv)) hk hev' (by rw [massOf_perm hp]; exact hzero.symm)
  refine ⟨_, by unfold Engine.query; rw [h1]; rfl, ?_, ?_, ?_⟩
  · rw [List.map_map]; rfl
  · intro q hq
    obtain ⟨c, hcm, rfl⟩ := List.mem_map.1 hq
    dsimp only
    rw [List.map_map]
    have hv : c.1 ∈ e.bbn.map Node.var := (hvm _).2 (List.mem_map_of_mem hcm)
    have h4 := (h2.filter fun q => decide (q.1 = c.1)).map Prod.snd
    rw [allStates_filter hN.wf.nodup hv] at h4
    rw [List.filter_map, List.map_map] at h4
    exact h4
  · intro q hq r hr
    obtain ⟨c, hcm, rfl⟩ := List.mem_map.1 hq
    obtain ⟨m, hm, rfl⟩ := List.mem_map.1 hr
    obtain ⟨hm1, hm2⟩ := List.mem_filter.1 hm
    have := h3 m.1.1 m.1.2 m.2 hm1
    dsimp only
    rw [this, ← hzero, div_zero]

/-- Specification: the product of the probabilities that successive queries report, each with the earlier items as evidence. -/
inductive Chain (nd : Nondet V) (e : Engine V S K) : List (V × S) → K → Prop
  | nil : Chain nd e [] 1
  | snoc {ev : List (V × S)} {P p : K} {out : List (V × List (S × K))} {v : V} {s : S} : Chain nd e ev P → e.query nd ev = .ok out →
      Gives out v s p → Chain nd e (ev ++ [(v, s)]) (P * p)

omit [LinearOrder V] [IsStrictOrderedRing K] [LinearOrder K] [Field K] in
theorem agrees_snoc {ev : List (V × S)} {v : V} {s : S} (x : V → S) : Agrees (ev ++ [(v, s)]) x ↔ Agrees ev x ∧ x v = s := by
  simp only [Agrees, List.mem_append, List.mem_singleton]
  constructor
  · exact fun h => ⟨fun p hp => h p (Or.inl hp), h (v, s) (Or.inr rfl)⟩
  · rintro ⟨h1, h2⟩ p (hp | rfl)
    · exact h1 p hp
    · exact h2

theorem massOf_snoc {dom : V → List S} {nodes : List (Node V S K)} {x₀ : V → S} {ev : List (V × S)} {v : V} {s : S} :
    massOf dom nodes x₀ (Agrees (ev ++ [(v, s)])) = massOf dom nodes x₀ (fun x => Agrees ev x ∧ x v = s) :=
  massOf_congr agrees_snoc

omit [Field K] [LinearOrder K] [IsStrictOrderedRing K] in
theorem Gives.unique {out : List (V × List (S × K))} {v : V} {s : S} {p q : K} (hp : Gives out v s p) (hq : Gives out v s q) : p = q := by
  obtain ⟨r, h1, h2⟩ := hp
  obtain ⟨r', h1', h2'⟩ := hq
  rw [h1] at h1'
  cases h1'
  rw [h2] at h2'
  cases h2'
  rfl

/-- A table `p` of conditional probabilities times the probability of the condition, also if the condition is impossible. -/
theorem mass_mul_div {dom : V → List S} {nodes : List (Node V S K)} (hN : IsNetwork dom nodes) {x₀ : V → S}
    (hx₀ : ∀ v ∈ nodes.map Node.var, x₀ v ∈ dom v) {A B : (V → S) → Prop} [DecidablePred A] [DecidablePred B] (hAB : ∀ x, A x → B x) :
    massOf dom nodes x₀ B * (massOf dom nodes x₀ A / massOf dom nodes x₀ B) = massOf dom nodes x₀ A := by
  by_cases h : massOf dom nodes x₀ B = 0
  · have h0 : massOf dom nodes x₀ (fun _ => False) = 0 := by
      unfold massOf
      simp
    have h1 : massOf dom nodes x₀ A ≤ 0 := h ▸ massOf_mono' hN hx₀ hAB
    have h2 : 0 ≤ massOf dom nodes x₀ A := h0 ▸ massOf_mono' hN hx₀ fun x h => h.elim
    rw [h, zero_mul]
    exact le_antisymm h2 h1
  · rw [mul_div_cancel₀ _ h]

section
variable {nd : Nondet V} (hnd : nd.Legal) {bn : List (V × Frame V S K)} (hf : Fitted bn) {e : Engine V S K}
include hnd hf

/-- **C108** (chain rule): the product of what successive queries report, each with the items before it as evidence, is the probability of all
items together.  This holds also if some of the evidence is impossible. -/
theorem chain_rule (he : Reach nd bn e) (hconn : Connected (netNodes e.cpds)) {x₀ : V → S} (hx₀ : ∀ u ∈ bn.map Prod.fst, x₀ u ∈ domOf bn u)
    {ev : List (V × S)} (hk : (ev.map Prod.fst).Nodup) (hev : ∀ p ∈ ev, p.1 ∈ bn.map Prod.fst ∧ p.2 ∈ domOf bn p.1)
    {P : K} (h : Chain nd e ev P) : P = massOf (domOf bn) (netNodes e.cpds) x₀ (Agrees ev) := by
  have hi := he.inv hf
  have hN := hi.network hf hconn
  rw [hi.dom_eq] at hN
  have hx : ∀ u ∈ (netNodes e.cpds).map Node.var, x₀ u ∈ domOf bn u := by
    rw [netNodes_vars, hi.vars]; exact hx₀
  induction h with
  | nil =>
    obtain ⟨dom', hd', -, hx'⟩ := exists_total_dom hN.states_nodup hx
    rw [← massOf_dom_congr hd', ← massOf_total hN.wf hN.acyclic ((hN.congr hd').normalised) hx']
    exact massOf_congr (by simp [Agrees])
  | @snoc ev P p out v s _ hq hg ih =>
    have hk' : (ev.map Prod.fst).Nodup := by
      rw [List.map_append] at hk
      exact (List.nodup_append.1 hk).1
    have hev' : ∀ p ∈ ev, p.1 ∈ bn.map Prod.fst ∧ p.2 ∈ domOf bn p.1 := fun p hp => hev p (List.mem_append_left _ hp)
    have hvs := hev (v, s) (by simp)
    obtain ⟨out', h1, h2⟩ := hi.query_answers hnd hf hconn hx₀ hk' hev'
    rw [hq] at h1
    cases h1
    rw [hg.unique (h2.gives hvs.1 hvs.2), ih hk' hev', mass_mul_div hN hx fun x h => h.1, massOf_snoc]

/-- **C108**: the queries of a chain succeed. -/
theorem chain_exists (he : Reach nd bn e) (hconn : Connected (netNodes e.cpds)) (hne : ∀ u ∈ bn.map Prod.fst, domOf bn u ≠ [])
    {ev : List (V × S)} (hk : (ev.map Prod.fst).Nodup) (hev : ∀ p ∈ ev, p.1 ∈ bn.map Prod.fst ∧ p.2 ∈ domOf bn p.1) :
    ∃ P, Chain nd e ev P := by
  classical
  have hi := he.inv hf
  induction ev using List.reverseRecOn with
  | nil => exact ⟨1, .nil⟩
  | append_singleton ev q ih =>
    obtain ⟨v, s⟩ := q
    have hk' : (ev.map Prod.fst).Nodup := by
      rw [List.map_append] at hk
      exact (List.nodup_append.1 hk).1
    have hev' : ∀ p ∈ ev, p.1 ∈ bn.map Prod.fst ∧ p.2 ∈ domOf bn p.1 := fun p hp => hev p (List.mem_append_left _ hp)
    have hvs := hev (v, s) (by simp)
    obtain ⟨P, hP⟩ := ih hk' hev'
    obtain ⟨out, h1, h2⟩ := hi.query_answers hnd hf hconn (x₀ := fun u => (domOf bn u).head?.getD s) (by
      intro u hu
      cases h : domOf bn u with
      | nil => exact absurd h (hne u hu)
      | cons a l => simp) hk' hev'
    exact ⟨_, .snoc hP h1 (h2.gives hvs.1 hvs.2)⟩

/-- **C108**: the order in which evidence is entered does not matter: along every order the reported probabilities have the same product.
For two items this is Bayes' rule. -/
theorem chain_order (he : Reach nd bn e) (hconn : Connected (netNodes e.cpds)) (hne : ∀ u ∈ bn.map Prod.fst, domOf bn u ≠ [])
    {ev ev' : List (V × S)} (hk : (ev.map Prod.fst).Nodup) (hev : ∀ p ∈ ev, p.1 ∈ bn.map Prod.fst ∧ p.2 ∈ domOf bn p.1)
    (hperm : ev.Perm ev') : ∃ P, Chain nd e ev P ∧ Chain nd e ev' P := by
  have hk' : (ev'.map Prod.fst).Nodup := (hperm.map Prod.fst).nodup_iff.1 hk
  have hev' : ∀ p ∈ ev', p.1 ∈ bn.map Prod.fst ∧ p.2 ∈ domOf bn p.1 := fun p hp => hev p (hperm.mem_iff.2 hp)
  obtain ⟨P, hP⟩ := chain_exists hnd hf he hconn hne hk hev
  obtain ⟨P', hP'⟩ := chain_exists hnd hf he hconn hne hk' hev'
  rcases ev.eq_nil_or_concat with rfl | ⟨l, d, rfl⟩
  · rw [List.nil_perm] at hperm
    subst hperm
    exact ⟨P, hP, hP⟩
  · have hx₀ : ∀ u ∈ bn.map Prod.fst, (domOf bn u).head?.getD d.2 ∈ domOf bn u := by
      intro u hu
      cases h : domOf bn u with
      | nil => exact absurd h (hne u hu)
      | cons a l => simp
    have e1 := chain_rule hnd hf he hconn hx₀ hk hev hP
    have e2 := chain_rule hnd hf he hconn hx₀ hk' hev' hP'
    have e3 : P = P' := by
      rw [e1, e2]
      exact massOf_congr fun x => ⟨fun h p hp => h p (hperm.mem_iff.2 hp), fun h p hp => h p (hperm.mem_iff.1 hp)⟩
    exact ⟨P, hP, e3 ▸ hP'⟩

/-- **C108** (law of total probability): what a query reports for `y` is the average, over the states of any variable `v` that is not observed,
of what the queries with that state as further evidence report; the weights are what the query reports for `v`. -/
theorem query_total (he : Reach nd bn e) (hconn : Connected (netNodes e.cpds)) {x₀ : V → S} (hx₀ : ∀ u ∈ bn.map Prod.fst, x₀ u ∈ domOf bn u)
    {ev : List (V × S)} (hk : (ev.map Prod.fst).Nodup) (hev : ∀ p ∈ ev, p.1 ∈ bn.map Prod.fst ∧ p.2 ∈ domOf bn p.1)
    {v y : V} (hv : v ∈ bn.map Prod.fst) (hvev : v ∉ ev.map Prod.fst) (hy : y ∈ bn.map Prod.fst) {t : S} (ht : t ∈ domOf bn y) :
    ∃ (out : List (V × List (S × K))) (outs : S → List (V × List (S × K))) (w q : S → K), e.query nd ev = .ok out ∧
      (∀ s ∈ domOf bn v, e.query nd (ev ++ [(v, s)]) = .ok (outs s) ∧ Gives out v s (w s) ∧ Gives (outs s) y t (q s)) ∧
      Gives out y t ((domOf bn v).map fun s => w s * q s).sum := by
  classical
  have hi := he.inv hf
  have hN := hi.network hf hconn
  rw [hi.dom_eq] at hN
  have hx : ∀ u ∈ (netNodes e.cpds).map Node.var, x₀ u ∈ domOf bn u := by
    rw [netNodes_vars, hi.vars]; exact hx₀
  obtain ⟨out, h1, h2⟩ := hi.query_answers hnd hf hconn hx₀ hk hev
  have hall : ∀ s ∈ domOf bn v, ∃ out', e.query nd (ev ++ [(v, s)]) = .ok out' ∧
      Gives out' y t (massOf (domOf bn) (netNodes e.cpds) x₀ (fun x => Agrees (ev ++ [(v, s)]) x ∧ x y = t) /
        massOf (domOf bn) (netNodes e.cpds) x₀ (Agrees (ev ++ [(v, s)]))) := by
    intro s hs
    obtain ⟨out', h1', h2'⟩ := hi.query_answers hnd hf hconn hx₀ (ev := ev ++ [(v, s)])
      (by
        rw [List.map_append, List.nodup_append]
        refine ⟨hk, by simp, ?_⟩
        intro a ha b hb
        simp only [List.map_cons, List.map_nil, List.mem_singleton] at hb
        rintro rfl
        exact hvev (hb ▸ ha))
      (by
        intro p hp
        rcases List.mem_append.1 hp with hp | hp
        · exact hev p hp
        · rw [List.mem_singleton] at hp
          subst hp
          exact ⟨hv, hs⟩)
    exact ⟨out', h1', h2'.gives hy ht⟩
  choose! outs h3 h4 using hall
  refine ⟨out, outs, _, _, h1, fun s hs => ⟨h3 s hs, h2.gives hv hs, h4 s hs⟩, ?_⟩
  have hg := h2.gives hy ht
  have : ((domOf bn v).map fun s => massOf (domOf bn) (netNodes e.cpds) x₀ (fun x => Agrees ev x ∧ x v = s) /
      massOf (domOf bn) (netNodes e.cpds) x₀ (Agrees ev) *
      (massOf (domOf bn) (netNodes e.cpds) x₀ (fun x => Agrees (ev ++ [(v, s)]) x ∧ x y = t) /
        massOf (domOf bn) (netNodes e.cpds) x₀ (Agrees (ev ++ [(v, s)])))).sum =
      massOf (domOf bn) (netNodes e.cpds) x₀ (fun x => Agrees ev x ∧ x y = t) /
      massOf (domOf bn) (netNodes e.cpds) x₀ (Agrees ev) := by
    obtain ⟨dom', hd', hdn, -⟩ := exists_total_dom hN.states_nodup hx
    have hvn : v ∈ (netNodes e.cpds).map Node.var := by rw [netNodes_vars, hi.vars]; exact hv
    have hsplit := massOf_split hdn hN.wf (fun x => Agrees ev x ∧ x y = t) hvn x₀
    simp only [massOf_dom_congr hd', hd' v hvn] at hsplit
    rw [← hsplit, div_eq_mul_inv, ← List.sum_map_mul_right]
    congr 1
    apply List.map_congr_left
    intro s _
    have e1 := mass_mul_div hN hx (A := fun x => Agrees (ev ++ [(v, s)]) x ∧ x y = t) (B := Agrees (ev ++ [(v, s)])) fun x h => h.1
    have e2 : massOf (domOf bn) (netNodes e.cpds) x₀ (fun x => Agrees (ev ++ [(v, s)]) x ∧ x y = t) =
        massOf (domOf bn) (netNodes e.cpds) x₀ (fun x => (Agrees ev x ∧ x y = t) ∧ x v = s) :=
      massOf_congr fun x => by rw [agrees_snoc]; tauto
    rw [← e2]
    conv_rhs => rw [← e1]
    rw [massOf_snoc]
    ring
  rw [this]
  exact hg

end

end

/-! ### Examples: the network `0 → 1 → 2` -/

/-- `chain_order`: Bayes' rule with a prior item of evidence. -/
example : ∃ e : Engine ℕ Bool ℚ, Reach exNd exChain e ∧ ∃ P, Chain exNd e [(1, true), (0, false), (2, true)] P ∧
    Chain exNd e [(1, true), (2, true), (0, false)] P ∧ 0 < P := by
  obtain ⟨e, _, hr, hcp⟩ := ex_fresh exChain_fitted
  have hconn : Connected (netNodes e.cpds) := by rw [hcp]; exact exChain_fitted.connected
  obtain ⟨P, h1, h2⟩ := chain_order exNd_legal exChain_fitted hr hconn (fun u hu => by rw [exChain_dom hu]; simp)
    (ev := [(1, true), (0, false), (2, true)]) (ev' := [(1, true), (2, true), (0, false)]) (by decide) (by decide) (by decide)
  refine ⟨e, hr, P, h1, h2, ?_⟩
  rw [chain_rule exNd_legal exChain_fitted hr hconn (x₀ := fun _ => true) (fun u hu => by rw [exChain_dom hu]; simp) (by decide) (by decide) h1, hcp]
  decide +kernel

/-- `query_total`: conditioning on 1 when 0 is observed. -/
example : ∃ e : Engine ℕ Bool ℚ, Reach exNd exChain e ∧
    ∃ (out : List (ℕ × List (Bool × ℚ))) (outs : Bool → List (ℕ × List (Bool × ℚ))) (w q : Bool → ℚ), e.query exNd [(0, true)] = .ok out ∧
      (∀ s ∈ domOf exChain 1, e.query exNd ([(0, true)] ++ [(1, s)]) = .ok (outs s) ∧ Gives out 1 s (w s) ∧ Gives (outs s) 2 true (q s)) ∧
      Gives out 2 true ((domOf exChain 1).map fun s => w s * q s).sum := by
  obtain ⟨e, _, hr, hcp⟩ := ex_fresh exChain_fitted
  exact ⟨e, hr, query_total exNd_legal exChain_fitted hr (by rw [hcp]; exact exChain_fitted.connected) (x₀ := fun _ => true)
    (fun u hu => by rw [exChain_dom hu]; simp) (by decide) (by decide) (by decide) (by decide) (by decide) (by decide)⟩

end Verif.BBN
