import Verif.Network.Pooled
import Verif.Network.PredictQuery
import Verif.BBN.PropsAct
import Verif.BBN.Coherent

/-!
# C160: small changes of the tables change the answers little
-/

namespace Verif.Network

open Function
open Verif.BBN (Gives domOf cpdsOf netNodes Agrees)

section
variable {V S K : Type} [LinearOrder V] [LinearOrder S] [Field K] [LinearOrder K] [IsStrictOrderedRing K]

/-! ### Specification -/

/-- Specification: the entries of the tables of two networks differ at most by the factor `c`. -/
def WithinFactor (net : Net V S K) (c : K) (tables₁ tables₂ : List (V × Table V S K)) : Prop :=
  ∀ v t₁ t₂, (v, t₁) ∈ tables₁ → (v, t₂) ∈ tables₂ → ∀ s ∈ statesOf net v, ∀ ps, IsConfig net t₁.parents ps →
    ∀ p q, t₁.entry s ps = some p → t₂.entry s ps = some q → p ≤ c * q ∧ q ≤ c * p

/-- Specification: the entries of the tables of two networks differ at most by `δ`, and are at least `ε`. -/
def WithinDistance (net : Net V S K) (δ ε : K) (tables₁ tables₂ : List (V × Table V S K)) : Prop :=
  ∀ v t₁ t₂, (v, t₁) ∈ tables₁ → (v, t₂) ∈ tables₂ → ∀ s ∈ statesOf net v, ∀ ps, IsConfig net t₁.parents ps →
    ∀ p q, t₁.entry s ps = some p → t₂.entry s ps = some q → ε ≤ p ∧ ε ≤ q ∧ |p - q| ≤ δ

/-! ### Lemmas -/

theorem sum_factor {α : Type} {l : List α} {f g : α → K} {C : K} (h : ∀ x ∈ l, f x ≤ C * g x) : (l.map f).sum ≤ C * (l.map g).sum := by
  rw [← List.sum_map_mul_left]
  exact List.sum_le_sum h

theorem prod_factor {α : Type} {l : List α} {f g : α → K} {c : K} (hc : 0 ≤ c) (h : ∀ x ∈ l, 0 ≤ f x ∧ 0 ≤ g x ∧ f x ≤ c * g x) :
    0 ≤ (l.map f).prod ∧ 0 ≤ (l.map g).prod ∧ (l.map f).prod ≤ c ^ l.length * (l.map g).prod := by
  induction l with
  | nil => simp
  | cons x l ih =>
    obtain ⟨i1, i2, i3⟩ := ih fun y hy => h y (List.mem_cons_of_mem _ hy)
    obtain ⟨h1, h2, h3⟩ := h x List.mem_cons_self
    simp only [List.map_cons, List.prod_cons, List.length_cons]
    refine ⟨mul_nonneg h1 i1, mul_nonneg h2 i2, ?_⟩
    calc f x * (l.map f).prod ≤ (c * g x) * (c ^ l.length * (l.map g).prod) := mul_le_mul h3 i3 i1 (mul_nonneg hc h2)
      _ = _ := by ring

/-- Quotients of numbers that differ at most by a factor. -/
theorem quotient_factor {C A₁ A₂ B₁ B₂ : K} (hC : 0 < C) (hB₁ : 0 ≤ B₁) (hB₂ : 0 ≤ B₂) (h1 : B₁ ≤ A₁) (h2 : B₂ ≤ A₂) (hA : A₂ ≤ C * A₁)
    (hA' : A₁ ≤ C * A₂) (hB : B₁ ≤ C * B₂) : B₁ / A₁ ≤ C ^ 2 * (B₂ / A₂) := by
  have hA₁ : 0 ≤ A₁ := hB₁.trans h1
  have hA₂ : 0 ≤ A₂ := hB₂.trans h2
  rcases hA₁.eq_or_lt with h | h
  · rw [← h, div_zero]
    exact mul_nonneg (by positivity) (div_nonneg hB₂ hA₂)
  · have hA₂' : 0 < A₂ := by
      rcases hA₂.eq_or_lt with h' | h'
      · rw [← h', mul_zero] at hA'
        exact absurd h (not_lt.2 hA')
      · exact h'
    rw [mul_div_assoc', div_le_div_iff₀ h hA₂']
    calc B₁ * A₂ ≤ (C * B₂) * (C * A₁) := mul_le_mul hB hA hA₂ (mul_nonneg hC.le hB₂)
      _ = C ^ 2 * B₂ * A₁ := by ring

theorem factor_distance {C P Q : K} (hP : P ≤ 1) (hQ : Q ≤ 1) (hP0 : 0 ≤ P) (hQ0 : 0 ≤ Q) (hC : 1 ≤ C) (h1 : P ≤ C * Q) (h2 : Q ≤ C * P) :
    |P - Q| ≤ C - 1 := by
  have i1 : (C - 1) * Q ≤ C - 1 := mul_le_of_le_one_right (by linarith) hQ
  have i2 : (C - 1) * P ≤ C - 1 := mul_le_of_le_one_right (by linarith) hP
  rw [abs_le]
  constructor <;> linarith

theorem dataMass_split {a : FitArgs K} {net : Net V S K} {df : DF V S} {par : V → List V} (x₀ : V → S) (A B : (V → S) → Prop) [DecidablePred A]
    [DecidablePred B] : dataMass a net df par x₀ A = dataMass a net df par x₀ (fun x => A x ∧ B x) + dataMass a net df par x₀ (fun x => A x ∧ ¬ B x) := by
  unfold dataMass BBN.massWith
  induction BBN.worlds (statesOf net) net.nodes x₀ with
  | nil => simp
  | cons x l ih =>
    by_cases h1 : A x
    · by_cases h2 : B x
      · simp [h1, h2, ih, add_assoc]
      · simp only [List.filter_cons, h1, h2, decide_true, decide_false, and_false, and_true, not_false_eq_true, if_true, List.map_cons,
          List.sum_cons, ih, Bool.false_eq_true, if_false]
        ring
    · simp [h1, ih]

/-! ### The theorem -/

/-- **C160**: fit a network twice, to any data and with any methods.  If the table entries differ at most by the factor `c`, then all answers of the
two inference engines differ at most by the factor `c ^ (2 m)`, `m` being the number of nodes, and so at most by `c ^ (2 m) - 1`. -/
theorem answers_stable {int : ℕ → S} (hint : Injective int) {ns : List V} {E : List (V × V)} (hE : IsStructure ns E) (hEne : E ≠ [])
    {net net₁ net₂ : Net V S K} (hr : Reach int ns E net) (hne : ∀ v ∈ net.nodes, statesOf net v ≠ [])
    {h h₁ h₂ : Heap V S} {ref₁ ref₂ : ℕ} {df₁ df₂ : DF V S} (hdf₁ : h[ref₁]? = some df₁) (hdf₂ : h[ref₂]? = some df₂)
    {a₁ a₂ : FitArgs K} (hess₁ : ∀ n, a₁.ess = some n → 0 < n) (hess₂ : ∀ n, a₂.ess = some n → 0 < n)
    (hf₁ : fitCpds int net h ref₁ a₁ = (net₁, h₁, .ok ())) (hf₂ : fitCpds int net h ref₂ a₂ = (net₂, h₂, .ok ()))
    {tables₁ tables₂ : List (V × Table V S K)} (hc₁ : cpds net₁ = .ok tables₁) (hc₂ : cpds net₂ = .ok tables₂)
    {c : K} (hc : 1 ≤ c) (hclose : WithinFactor net c tables₁ tables₂)
    {okName : V → Bool} (hok : ∀ v ∈ net.nodes, okName v = true) {nd₁ nd₂ : BBN.Nondet V} (hnd₁ : nd₁.Legal) (hnd₂ : nd₂.Legal) :
    ∃ e₁ e₂, BBN.Engine.create okName (framesOf tables₁) = .ok e₁ ∧ BBN.Engine.create okName (framesOf tables₂) = .ok e₂ ∧
      ∀ ev : List (V × S), (ev.map Prod.fst).Nodup → (∀ q ∈ ev, q.1 ∈ net.nodes ∧ q.2 ∈ statesOf net q.1) →
        ∃ out₁ out₂, e₁.query nd₁ ev = .ok out₁ ∧ e₂.query nd₂ ev = .ok out₂ ∧
          ∀ v ∈ net.nodes, ∀ s ∈ statesOf net v, ∃ p q, Gives out₁ v s p ∧ Gives out₂ v s q ∧
            p ≤ c ^ (2 * net.nodes.length) * q ∧ q ≤ c ^ (2 * net.nodes.length) * p ∧ |p - q| ≤ c ^ (2 * net.nodes.length) - 1 := by
  have hw := hr.wf hE
  obtain ⟨tables₁', hc₁', n1, f1⟩ := fitted_is_network hint hE hEne hr hne hess₁ hf₁
  obtain ⟨tables₂', hc₂', n2, f2⟩ := fitted_is_network hint hE hEne hr hne hess₂ hf₂
  rw [hc₁] at hc₁'
  cases hc₁'
  rw [hc₂] at hc₂'
  cases hc₂'
  have hfr₁ : (framesOf tables₁).map Prod.fst = net.nodes := by rw [← n1, framesOf, List.map_map]; rfl
  have hfr₂ : (framesOf tables₂).map Prod.fst = net.nodes := by rw [← n2, framesOf, List.map_map]; rfl
  obtain ⟨e₁, he₁, hinv₁, hcp₁⟩ := BBN.Engine.create_ok f1 (okName := okName) fun q hq => hok _ (hfr₁ ▸ List.mem_map_of_mem (f := Prod.fst) hq)
  obtain ⟨e₂, he₂, hinv₂, hcp₂⟩ := BBN.Engine.create_ok f2 (okName := okName) fun q hq => hok _ (hfr₂ ▸ List.mem_map_of_mem (f := Prod.fst) hq)
  have hpar : ∀ v ∈ net.nodes, IsParentList E v (sortedParents E v) := fun v _ => sortedParents_spec hE.edges_nodup v
  obtain ⟨hdom₁, hmass₁⟩ := massOf_framesOf hint hE hr hne hdf₁ hf₁ hpar hc₁
  obtain ⟨hdom₂, hmass₂⟩ := massOf_framesOf hint hE hr hne hdf₂ hf₂ hpar hc₂
  obtain ⟨-, -, -, tables₁', hc₁', -, g1⟩ := fit_cpds_correct hint hE hr hne hdf₁ hf₁
  obtain ⟨-, -, -, tables₂', hc₂', -, g2⟩ := fit_cpds_correct hint hE hr hne hdf₂ hf₂
  rw [hc₁] at hc₁'
  cases hc₁'
  rw [hc₂] at hc₂'
  cases hc₂'
  obtain ⟨x₀, hx₀⟩ : ∃ x₀ : V → S, ∀ v ∈ net.nodes, x₀ v ∈ statesOf net v := by
    refine ⟨fun v => (statesOf net v).headD (int 0), fun v hv => ?_⟩
    obtain ⟨s, l, hl⟩ := List.exists_cons_of_ne_nil (hne v hv)
    simp [hl]
  have hc0 : 0 < c := by linarith
  have hC1 : 1 ≤ c ^ (2 * net.nodes.length) := one_le_pow₀ hc
  -- the entries, for an assignment of states to the nodes
  have hent : ∀ x ∈ BBN.worlds (statesOf net) net.nodes x₀, ∀ v ∈ net.nodes,
      0 ≤ estimate a₁ (statesOf net v) ((sortedParents E v).map fun p => (statesOf net p).length).prod
          (fun s => observed net df₁ v (sortedParents E v) s ((sortedParents E v).map x)) (x v) ∧
      0 ≤ estimate a₂ (statesOf net v) ((sortedParents E v).map fun p => (statesOf net p).length).prod
          (fun s => observed net df₂ v (sortedParents E v) s ((sortedParents E v).map x)) (x v) ∧
      estimate a₁ (statesOf net v) ((sortedParents E v).map fun p => (statesOf net p).length).prod
          (fun s => observed net df₁ v (sortedParents E v) s ((sortedParents E v).map x)) (x v) ≤
        c * estimate a₂ (statesOf net v) ((sortedParents E v).map fun p => (statesOf net p).length).prod
          (fun s => observed net df₂ v (sortedParents E v) s ((sortedParents E v).map x)) (x v) ∧
      estimate a₂ (statesOf net v) ((sortedParents E v).map fun p => (statesOf net p).length).prod
          (fun s => observed net df₂ v (sortedParents E v) s ((sortedParents E v).map x)) (x v) ≤
        c * estimate a₁ (statesOf net v) ((sortedParents E v).map fun p => (statesOf net p).length).prod
          (fun s => observed net df₁ v (sortedParents E v) s ((sortedParents E v).map x)) (x v) := by
    intro x hx v hv
    have hx' := BBN.worlds_valid hx
    have hv1 := hv
    have hv2 := hv
    rw [← n1] at hv1
    rw [← n2] at hv2
    obtain ⟨⟨v₁, t₁⟩, ht₁, rfl⟩ := List.mem_map.1 hv1
    obtain ⟨⟨v₂, t₂⟩, ht₂, hv2⟩ := List.mem_map.1 hv2
    dsimp only at hv2 hv ⊢
    subst hv2
    have q₁ := parentList_unique (g1 _ t₁ ht₁).2.1 (hpar _ hv)
    have q₂ := parentList_unique (g2 _ t₂ ht₂).2.1 (hpar _ hv)
    have hconf : IsConfig net (sortedParents E v₂) ((sortedParents E v₂).map x) := by
      rw [IsConfig, List.forall₂_map_left_iff, List.forall₂_same]
      intro p hpp
      refine (hx' p).1 ?_
      rw [hw.nodes]
      exact mem_nodesOfEdges.2 ⟨_, ((hpar _ hv).2 p).1 hpp, Or.inl rfl⟩
    have e1 := (g1 _ t₁ ht₁).2.2.2.2 (x v₂) ((hx' _).1 hv) ((sortedParents E v₂).map x) (q₁.symm ▸ hconf)
    have e2 := (g2 _ t₂ ht₂).2.2.2.2 (x v₂) ((hx' _).1 hv) ((sortedParents E v₂).map x) (q₂.symm ▸ hconf)
    obtain ⟨r1, r2⟩ := hclose _ t₁ t₂ ht₁ ht₂ (x v₂) ((hx' _).1 hv) _ (q₁.symm ▸ hconf) _ _ e1 e2
    rw [q₁, q₂] at r1 r2
    exact ⟨estimate_nonneg hess₁ _ _ _ _, estimate_nonneg hess₂ _ _ _ _, r1, r2⟩
  have hM : ∀ (A : (V → S) → Prop) [DecidablePred A], 0 ≤ dataMass a₁ net df₁ (sortedParents E) x₀ A ∧
      0 ≤ dataMass a₂ net df₂ (sortedParents E) x₀ A ∧
      dataMass a₁ net df₁ (sortedParents E) x₀ A ≤ c ^ net.nodes.length * dataMass a₂ net df₂ (sortedParents E) x₀ A ∧
      dataMass a₂ net df₂ (sortedParents E) x₀ A ≤ c ^ net.nodes.length * dataMass a₁ net df₁ (sortedParents E) x₀ A := by
    intro A _
    have hp : ∀ x ∈ (BBN.worlds (statesOf net) net.nodes x₀).filter fun x => A x,
        0 ≤ dataJoint a₁ net df₁ (sortedParents E) x ∧ 0 ≤ dataJoint a₂ net df₂ (sortedParents E) x ∧
        dataJoint a₁ net df₁ (sortedParents E) x ≤ c ^ net.nodes.length * dataJoint a₂ net df₂ (sortedParents E) x ∧
        dataJoint a₂ net df₂ (sortedParents E) x ≤ c ^ net.nodes.length * dataJoint a₁ net df₁ (sortedParents E) x := by
      intro x hx
      have hx := hent x (List.mem_filter.1 hx).1
      obtain ⟨i1, i2, i3⟩ := prod_factor hc0.le fun v hv => ⟨(hx v hv).1, (hx v hv).2.1, (hx v hv).2.2.1⟩
      obtain ⟨-, -, i4⟩ := prod_factor hc0.le fun v hv => ⟨(hx v hv).2.1, (hx v hv).1, (hx v hv).2.2.2⟩
      exact ⟨i1, i2, i3, i4⟩
    unfold dataMass BBN.massWith
    refine ⟨List.sum_nonneg ?_, List.sum_nonneg ?_, sum_factor fun x hx => (hp x hx).2.2.1, sum_factor fun x hx => (hp x hx).2.2.2⟩
    · intro y hy
      obtain ⟨x, hx, rfl⟩ := List.mem_map.1 hy
      exact (hp x hx).1
    · intro y hy
      obtain ⟨x, hx, rfl⟩ := List.mem_map.1 hy
      exact (hp x hx).2.1
  refine ⟨e₁, e₂, he₁, he₂, fun ev hk hev => ?_⟩
  have hxd₁ : ∀ v ∈ (framesOf tables₁).map Prod.fst, x₀ v ∈ domOf (framesOf tables₁) v := by
    intro v hv
    rw [hfr₁] at hv
    rw [hdom₁ v hv]
    exact hx₀ v hv
  have hxd₂ : ∀ v ∈ (framesOf tables₂).map Prod.fst, x₀ v ∈ domOf (framesOf tables₂) v := by
    intro v hv
    rw [hfr₂] at hv
    rw [hdom₂ v hv]
    exact hx₀ v hv
  obtain ⟨out₁, ho₁, hrep₁⟩ := hinv₁.query_answers hnd₁ f1 (by rw [hcp₁]; exact f1.connected) hxd₁ hk (by
    intro q hq
    rw [hfr₁, hdom₁ _ (hev q hq).1]
    exact hev q hq)
  obtain ⟨out₂, ho₂, hrep₂⟩ := hinv₂.query_answers hnd₂ f2 (by rw [hcp₂]; exact f2.connected) hxd₂ hk (by
    intro q hq
    rw [hfr₂, hdom₂ _ (hev q hq).1]
    exact hev q hq)
  refine ⟨out₁, out₂, ho₁, ho₂, fun v hv s hs => ⟨_, _, hrep₁.gives (by rw [hfr₁]; exact hv) (by rw [hdom₁ v hv]; exact hs),
    hrep₂.gives (by rw [hfr₂]; exact hv) (by rw [hdom₂ v hv]; exact hs), ?_⟩⟩
  simp only [hcp₁, hcp₂, hmass₁, hmass₂]
  obtain ⟨a0, b0, ab, ba⟩ := hM (Agrees ev)
  obtain ⟨a0', b0', ab', ba'⟩ := hM fun x => Agrees ev x ∧ x v = s
  have le₁ : dataMass a₁ net df₁ (sortedParents E) x₀ (fun x => Agrees ev x ∧ x v = s) ≤ dataMass a₁ net df₁ (sortedParents E) x₀ (Agrees ev) := by
    rw [dataMass_split x₀ (Agrees ev) fun x => x v = s]
    exact le_add_of_nonneg_right (hM _).1
  have le₂ : dataMass a₂ net df₂ (sortedParents E) x₀ (fun x => Agrees ev x ∧ x v = s) ≤ dataMass a₂ net df₂ (sortedParents E) x₀ (Agrees ev) := by
    rw [dataMass_split x₀ (Agrees ev) fun x => x v = s]
    exact le_add_of_nonneg_right (hM _).2.1
  have hCm : 0 < c ^ net.nodes.length := pow_pos hc0 _
  have r1 := quotient_factor hCm a0' b0' le₁ le₂ ba ab ab'
  have r2 := quotient_factor hCm b0' a0' le₂ le₁ ab ba ba'
  rw [← pow_mul, mul_comm net.nodes.length 2] at r1 r2
  exact ⟨r1, r2, factor_distance (div_le_one_of_le₀ le₁ a0) (div_le_one_of_le₀ le₂ b0) (div_nonneg a0' a0) (div_nonneg b0' b0) hC1 r1 r2⟩

/-- **C160**, in terms of differences: if the table entries are at least `ε` and differ at most by `δ`, the answers differ at most by
`(1 + δ / ε) ^ (2 m) - 1`. -/
theorem answers_stable_distance {int : ℕ → S} (hint : Injective int) {ns : List V} {E : List (V × V)} (hE : IsStructure ns E) (hEne : E ≠ [])
    {net net₁ net₂ : Net V S K} (hr : Reach int ns E net) (hne : ∀ v ∈ net.nodes, statesOf net v ≠ [])
    {h h₁ h₂ : Heap V S} {ref₁ ref₂ : ℕ} {df₁ df₂ : DF V S} (hdf₁ : h[ref₁]? = some df₁) (hdf₂ : h[ref₂]? = some df₂)
    {a₁ a₂ : FitArgs K} (hess₁ : ∀ n, a₁.ess = some n → 0 < n) (hess₂ : ∀ n, a₂.ess = some n → 0 < n)
    (hf₁ : fitCpds int net h ref₁ a₁ = (net₁, h₁, .ok ())) (hf₂ : fitCpds int net h ref₂ a₂ = (net₂, h₂, .ok ()))
    {tables₁ tables₂ : List (V × Table V S K)} (hc₁ : cpds net₁ = .ok tables₁) (hc₂ : cpds net₂ = .ok tables₂)
    {δ ε : K} (hδ : 0 ≤ δ) (hε : 0 < ε) (hclose : WithinDistance net δ ε tables₁ tables₂)
    {okName : V → Bool} (hok : ∀ v ∈ net.nodes, okName v = true) {nd₁ nd₂ : BBN.Nondet V} (hnd₁ : nd₁.Legal) (hnd₂ : nd₂.Legal) :
    ∃ e₁ e₂, BBN.Engine.create okName (framesOf tables₁) = .ok e₁ ∧ BBN.Engine.create okName (framesOf tables₂) = .ok e₂ ∧
      ∀ ev : List (V × S), (ev.map Prod.fst).Nodup → (∀ q ∈ ev, q.1 ∈ net.nodes ∧ q.2 ∈ statesOf net q.1) →
        ∃ out₁ out₂, e₁.query nd₁ ev = .ok out₁ ∧ e₂.query nd₂ ev = .ok out₂ ∧
          ∀ v ∈ net.nodes, ∀ s ∈ statesOf net v, ∃ p q, Gives out₁ v s p ∧ Gives out₂ v s q ∧
            |p - q| ≤ (1 + δ / ε) ^ (2 * net.nodes.length) - 1 := by
  have hdε : 0 ≤ δ / ε := div_nonneg hδ hε.le
  obtain ⟨e₁, e₂, he₁, he₂, H⟩ := answers_stable hint hE hEne hr hne hdf₁ hdf₂ hess₁ hess₂ hf₁ hf₂ hc₁ hc₂ (c := 1 + δ / ε) (by linarith) (by
    intro v t₁ t₂ ht₁ ht₂ s hs ps hps p q hp hq
    obtain ⟨h1, h2, h3⟩ := hclose v t₁ t₂ ht₁ ht₂ s hs ps hps p q hp hq
    have i1 : δ ≤ δ / ε * p := by
      rw [div_mul_eq_mul_div, le_div_iff₀ hε]
      exact mul_le_mul_of_nonneg_left h1 hδ
    have i2 : δ ≤ δ / ε * q := by
      rw [div_mul_eq_mul_div, le_div_iff₀ hε]
      exact mul_le_mul_of_nonneg_left h2 hδ
    rw [abs_le] at h3
    constructor <;> linarith) hok hnd₁ hnd₂
  refine ⟨e₁, e₂, he₁, he₂, fun ev hk hev => ?_⟩
  obtain ⟨out₁, out₂, ho₁, ho₂, G⟩ := H ev hk hev
  refine ⟨out₁, out₂, ho₁, ho₂, fun v hv s hs => ?_⟩
  obtain ⟨p, q, g1, g2, -, -, g3⟩ := G v hv s hs
  exact ⟨p, q, g1, g2, g3⟩

/-- **C160**, the prior: fit a network with maximum likelihood and with a prior.  If the prior has at most the share `δ` in every distribution, and
all entries fitted with maximum likelihood and the uniform probabilities are at least `ε`, then the answers differ at most by
`(1 + δ / ε) ^ (2 m) - 1`. -/
theorem prior_answers {int : ℕ → S} (hint : Injective int) {ns : List V} {E : List (V × V)} (hE : IsStructure ns E) (hEne : E ≠ [])
    {net net₀ : Net V S K} (hr : Reach int ns E net) (hne : ∀ v ∈ net.nodes, statesOf net v ≠ [])
    {h h₀ : Heap V S} {ref : ℕ} {df : DF V S} (hdf : h[ref]? = some df)
    {a : FitArgs K} (ha : Bayesian a) (hess : ∀ n, a.ess = some n → 0 < n) (hf₀ : fitCpds int net h ref {} = (net₀, h₀, .ok ()))
    {tables₀ : List (V × Table V S K)} (hc₀ : cpds net₀ = .ok tables₀) {δ ε : K} (hδ : 0 ≤ δ) (hε : 0 < ε)
    (hp : ∀ v t, (v, t) ∈ tables₀ → ∀ s ∈ statesOf net v, ∀ ps, IsConfig net t.parents ps → (∀ p, t.entry s ps = some p → ε ≤ p) ∧
      ε ≤ 1 / (statesOf net v).length ∧
      priorRows a (statesOf net v).length (t.parents.map fun u => (statesOf net u).length).prod ≤
        δ * (knownRowsWith net df t.parents ps + priorRows a (statesOf net v).length (t.parents.map fun u => (statesOf net u).length).prod))
    {okName : V → Bool} (hok : ∀ v ∈ net.nodes, okName v = true) {nd₁ nd₂ : BBN.Nondet V} (hnd₁ : nd₁.Legal) (hnd₂ : nd₂.Legal) :
    ∃ net' h' tables e₀ e, fitCpds int net h ref a = (net', h', .ok ()) ∧ cpds net' = .ok tables ∧
      BBN.Engine.create okName (framesOf tables₀) = .ok e₀ ∧ BBN.Engine.create okName (framesOf tables) = .ok e ∧
      ∀ ev : List (V × S), (ev.map Prod.fst).Nodup → (∀ q ∈ ev, q.1 ∈ net.nodes ∧ q.2 ∈ statesOf net q.1) →
        ∃ out₀ out, e₀.query nd₁ ev = .ok out₀ ∧ e.query nd₂ ev = .ok out ∧
          ∀ v ∈ net.nodes, ∀ s ∈ statesOf net v, ∃ p q, Gives out₀ v s p ∧ Gives out v s q ∧
            |p - q| ≤ (1 + δ / ε) ^ (2 * net.nodes.length) - 1 := by
  obtain ⟨net', h', tables₀', tables, hf, hc₀', hc, -, -, F⟩ := prior_effect hint hE hr hne hdf (a₀ := {}) rfl ha hf₀
  rw [hc₀] at hc₀'
  cases hc₀'
  obtain ⟨e₀, e, he₀, he, H⟩ := answers_stable_distance hint hE hEne hr hne hdf hdf (a₁ := {}) (fun n hn => by cases hn) hess hf₀ hf hc₀ hc hδ hε (by
    intro v t₀ t ht₀ ht s hs ps hps p q hp' hq'
    obtain ⟨hpe, G⟩ := F v t₀ t ht₀ ht
    obtain ⟨p₁, q₁, g1, g2, g3, g4, g5, g6⟩ := G s hs ps (hpe.symm ▸ hps)
    rw [hp'] at g1
    rw [hq'] at g2
    cases g1
    cases g2
    obtain ⟨i1, i2, i3⟩ := hp v t₀ ht₀ s hs ps hps
    rw [hpe] at g3 g4 g6
    have hn : (0 : K) ≤ knownRowsWith net df t₀.parents ps := Nat.cast_nonneg _
    generalize priorRows a (statesOf net v).length (t₀.parents.map fun u => (statesOf net u).length).prod = w at *
    generalize (knownRowsWith net df t₀.parents ps : K) = n at *
    have hd : 0 < n + w := by linarith
    refine ⟨i1 p hp', ?_, ?_⟩
    · refine le_of_mul_le_mul_left ?_ hd
      rw [g3]
      have j1 := mul_le_mul_of_nonneg_left (i1 p hp') hn
      have j2 := mul_le_mul_of_nonneg_left i2 g4.le
      linarith
    · rw [abs_sub_comm]
      refine g6.trans ?_
      rw [div_le_iff₀ hd]
      exact i3) hok hnd₁ hnd₂
  exact ⟨net', h', tables, e₀, e, hf, hc, he₀, he, H⟩

end

end Verif.Network
