import Verif.BBN.FrontDoor

/-!
# C153: front-door adjustment
-/

namespace Verif.BBN
open Function Graph

section
variable {V S K : Type} [LinearOrder V] [DecidableEq S] [Field K] [LinearOrder K] [IsStrictOrderedRing K]

/-- **C153.** Let an intervention set `x` to `s` and leave the graph in one piece, and let `m` and `y` meet the front-door criterion in the graph before the intervention.
Assume that `x = s` is possible and that every state of `m` that is possible with `x = s` is possible with every possible state of `x`.  Then the probability of
`y = t` that the query without evidence gives after the intervention can be computed from queries on `x`, `m` and `y` before it: it is the average, with
the probabilities `w` of the states `μ` of `m` given `x = s`, of the averages, with the probabilities `u` of the states `s'` of `x`, of the probabilities `q` of
`y = t` given `x = s'` and `m = μ`. -/
theorem do_frontdoor {nd : Nondet V} (hnd : nd.Legal) {bn : List (V × Frame V S K)} (hf : Fitted bn) {e e' : Engine V S K}
    (he : Reach nd bn e) {x : V} {s : S} (hdo : e.doIntervention x (.label true s) = (e', .ok ()))
    (hconn : Connected (netNodes e'.cpds)) {x₀ : V → S} (hx₀ : ∀ u ∈ bn.map Prod.fst, x₀ u ∈ domOf bn u)
    {m y : V} (hm : m ∈ bn.map Prod.fst) (hy : y ∈ bn.map Prod.fst) (hfd : FrontDoor (arrows (netNodes e.cpds)) x m y)
    (hpos : 0 < massOf (domOf bn) (netNodes e.cpds) x₀ (Agrees [(x, s)]))
    (hpos' : ∀ s' ∈ domOf bn x, ∀ μ ∈ domOf bn m, 0 < massOf (domOf bn) (netNodes e.cpds) x₀ (Agrees [(x, s')]) →
      0 < massOf (domOf bn) (netNodes e.cpds) x₀ (Agrees [(x, s), (m, μ)]) →
      0 < massOf (domOf bn) (netNodes e.cpds) x₀ (Agrees [(x, s'), (m, μ)])) {t : S} (ht : t ∈ domOf bn y) :
    ∃ (u w : S → K) (q : S → S → K) (out₀ out₁ out' : List (V × List (S × K))) (out₂ : S → S → List (V × List (S × K))),
      e.query nd [] = .ok out₀ ∧ (∀ s' ∈ domOf bn x, Gives out₀ x s' (u s')) ∧
      e.query nd [(x, s)] = .ok out₁ ∧ (∀ μ ∈ domOf bn m, Gives out₁ m μ (w μ)) ∧
      (∀ s' ∈ domOf bn x, ∀ μ ∈ domOf bn m, e.query nd [(x, s'), (m, μ)] = .ok (out₂ s' μ) ∧ Gives (out₂ s' μ) y t (q s' μ)) ∧
      e'.query nd [] = .ok out' ∧
      Gives out' y t ((domOf bn m).map fun μ => w μ * ((domOf bn x).map fun s' => u s' * q s' μ).sum).sum := by
  classical
  have hi := he.inv hf
  obtain ⟨hxv, hs, hcp, hdo'⟩ := do_label_cases hf he hdo
  have hconn0 : Connected (netNodes e.cpds) := connected_of_do (hcp ▸ hconn)
  have hN := hi.network hf hconn0
  rw [hi.dom_eq] at hN
  have hi' : e'.Inv bn := by
    have := hi.step hf nd (.doIt x (.label true s))
    simpa only [Engine.step, hdo] using this
  have hxn : ∀ u ∈ (netNodes e.cpds).map Node.var, x₀ u ∈ domOf bn u := by
    rw [netNodes_vars, hi.vars]; exact hx₀
  have hxe : x ∈ (netNodes e.cpds).map Node.var := by rw [netNodes_vars, hi.vars]; exact hxv
  have hme : m ∈ (netNodes e.cpds).map Node.var := by rw [netNodes_vars, hi.vars]; exact hm
  have hxm := hfd.ne_xm
  -- probabilities after the intervention
  have hd : ∀ A : (V → S) → Prop, ∀ [DecidablePred A], massOf (domOf bn) (netNodes e'.cpds) x₀ A =
      massOf (domOf bn) (doNodes (netNodes e.cpds) x s) x₀ A := by
    intro A _
    rw [massOf_doNodes hN.wf hxe, netNodes_vars, hi.vars]
    rcases hi.do_cases hf x (.dist ⟨(domOf bn x).toFinset, fun t => if t = s then 1 else 0⟩) with
      ⟨err, h, _, _⟩ | ⟨d', c, e₁, hd', hc, hd, _, h, hi₁, hcp₁⟩
    · rw [h] at hdo'
      cases hdo'
    · rw [h] at hdo'
      cases hdo'
      cases hd'
      have := massOf_do hi hf hc hd x₀ A
      rw [← hcp₁, hi.dom_eq] at this
      exact this
  -- the queries
  obtain ⟨out₀, a1, a2⟩ := hi.query_answers hnd hf hconn0 hx₀ (ev := []) List.nodup_nil (by intro p hp; simp at hp)
  obtain ⟨out₁, b1, b2⟩ := hi.query_answers hnd hf hconn0 hx₀ (ev := [(x, s)]) (by simp) (by
    intro p hp
    rw [List.mem_singleton.1 hp]
    exact ⟨hxv, hs⟩)
  have hall : ∀ s' ∈ domOf bn x, ∀ μ ∈ domOf bn m, ∃ out, e.query nd [(x, s'), (m, μ)] = .ok out ∧
      Gives out y t (massOf (domOf bn) (netNodes e.cpds) x₀ (fun z => Agrees [(x, s'), (m, μ)] z ∧ z y = t) /
        massOf (domOf bn) (netNodes e.cpds) x₀ (Agrees [(x, s'), (m, μ)])) := by
    intro s' hs' μ hμ
    obtain ⟨out, h1, h2⟩ := hi.query_answers hnd hf hconn0 hx₀ (ev := [(x, s'), (m, μ)]) (by simpa using hxm) (by
      intro p hp
      rcases List.mem_cons.1 hp with rfl | hp
      · exact ⟨hxv, hs'⟩
      · rw [List.mem_singleton.1 hp]
        exact ⟨hm, hμ⟩)
    exact ⟨out, h1, h2.gives hy ht⟩
  choose! out₂ c1 c2 using hall
  obtain ⟨out', d1, d2⟩ := hi'.query_answers hnd hf hconn hx₀ (ev := []) List.nodup_nil (by intro p hp; simp at hp)
  refine ⟨_, _, _, out₀, out₁, out', out₂, a1, fun s' hs' => a2.gives hxv hs', b1, fun μ hμ => b2.gives hm hμ,
    fun s' hs' μ hμ => ⟨c1 s' hs' μ hμ, c2 s' hs' μ hμ⟩, d1, ?_⟩
  have hg := d2.gives hy ht
  convert hg using 1
  obtain ⟨dom', hcongr, hdn, hxx⟩ := exists_total_dom hN.states_nodup hxn
  have hn' := (hN.congr hcongr).normalised
  have f1 : ∀ (A B : (V → S) → Prop) [DecidablePred A] [DecidablePred B], (∀ z, A z ↔ B z) →
      massOf (domOf bn) (netNodes e.cpds) x₀ A = massOf dom' (netNodes e.cpds) x₀ B := by
    intro A B _ _ h
    rw [massOf_dom_congr hcongr]
    exact massOf_congr h
  have hone : massOf dom' (netNodes e.cpds) x₀ (Agrees []) = 1 := massOf_nil hN.wf hN.acyclic hdn hn' hxx
  have hcx : dom' x = domOf bn x := hcongr x hxe
  have hcm : dom' m = domOf bn m := hcongr m hme
  have hsx : s ∈ dom' x := by rw [hcx]; exact hs
  have hcongr' : ∀ u ∈ (doNodes (netNodes e.cpds) x s).map Node.var, dom' u = domOf bn u := by
    rw [doNodes_vars]; exact hcongr
  have hone' : massOf (domOf bn) (netNodes e'.cpds) x₀ (Agrees []) = 1 := by
    rw [hd, ← massOf_dom_congr hcongr']
    exact massOf_nil (doNodes_wf hN.wf x s) (doNodes_acyclic hN.acyclic x s) hdn (doNodes_normalised hdn hn' hsx) hxx
  have hmain := massOf_frontdoor hN.wf hN.acyclic hdn hn' hxx (hN.congr hcongr).nonneg hfd hxe hme hsx
    (by rw [← f1 (Agrees [(x, s)]) _ (fun z => by simp [Agrees])]; exact hpos)
    (by
      intro s' hs' μ hμ h1 h2
      rw [← f1 (Agrees [(x, s'), (m, μ)]) _ (fun z => by simp [Agrees])]
      refine hpos' s' (hcx ▸ hs') μ (hcm ▸ hμ) ?_ ?_
      · rw [f1 _ (fun z => z x = s') (fun z => by simp [Agrees])]
        exact h1
      · rw [f1 _ (fun z => z x = s ∧ z m = μ) (fun z => by simp [Agrees])]
        exact h2) t
  have hlhs : massOf (domOf bn) (netNodes e'.cpds) x₀ (fun z => Agrees [] z ∧ z y = t) =
      massOf dom' (doNodes (netNodes e.cpds) x s) x₀ (fun z => z y = t) := by
    rw [hd, massOf_dom_congr hcongr']
    exact massOf_congr fun z => by simp [Agrees]
  rw [hone', div_one, hlhs, hmain, hcm, hcx]
  congr 1
  apply List.map_congr_left
  intro μ _
  congr 1
  · congr 1
    · exact f1 _ _ fun z => by simp [Agrees]
    · exact f1 _ _ fun z => by simp [Agrees]
  · congr 1
    apply List.map_congr_left
    intro s' _
    congr 1
    · rw [f1 (Agrees []) (Agrees []) fun _ => Iff.rfl, hone, div_one]
      exact f1 _ _ fun z => by simp [Agrees]
    · congr 1
      · exact f1 _ _ fun z => by simp [Agrees]
      · exact f1 _ _ fun z => by simp [Agrees]

end

/-! ### Example: `1 → 2 → 3` with a common cause 0 of 1 and 3 -/

def exFront : List (ℕ × Frame ℕ Bool ℚ) :=
  [(0, ⟨[true, false], [], fun s _ => if s then 3/10 else 7/10⟩),
   (1, ⟨[true, false], [0], fun s ps => match s, ps with
      | true, [true] => 9/10 | false, [true] => 1/10 | true, _ => 1/5 | false, _ => 4/5⟩),
   (2, ⟨[true, false], [1], fun s ps => match s, ps with
      | true, [true] => 4/5 | false, [true] => 1/5 | true, _ => 1/10 | false, _ => 9/10⟩),
   (3, ⟨[true, false], [0, 2], fun s ps => match s, ps with
      | true, [true, true] => 9/10 | false, [true, true] => 1/10 | true, _ => 1/4 | false, _ => 3/4⟩)]

theorem exFront_fitted : Fitted exFront where
  wf := ⟨by decide, by decide, by decide, by decide⟩
  nonempty := by decide
  acyclic := acyclic_of_lt (by decide)
  connected := by
    have h0 : ∀ u ∈ (netNodes (cpdsOf exFront)).map Node.var, Graph.WConn (arrows (netNodes (cpdsOf exFront))) 0 u := by
      intro u hu
      have : u = 0 ∨ u = 1 ∨ u = 2 ∨ u = 3 := by
        simpa [exFront, cpdsOf] using hu
      rcases this with rfl | rfl | rfl | rfl
      · exact Relation.ReflTransGen.refl
      · exact Graph.wconn_of_mem (by decide)
      · exact (Graph.wconn_of_mem (b := 1) (by decide)).trans (Graph.wconn_of_mem (by decide))
      · exact Graph.wconn_of_mem (by decide)
    intro u hu w hw
    exact (Graph.WConn.symm (h0 u hu)).trans (h0 w hw)
  states_nodup := by
    intro n hn
    simp only [exFront, cpdsOf, netNodes, List.map_cons, List.map_nil, List.mem_cons, List.not_mem_nil, or_false] at hn
    rcases hn with rfl | rfl | rfl | rfl <;> decide
  nonneg := by
    intro n hn x _
    simp only [exFront, cpdsOf, netNodes, List.map_cons, List.map_nil, List.mem_cons, List.not_mem_nil, or_false] at hn
    rcases hn with rfl | rfl | rfl | rfl
    · simp only [cpdFactor, List.map_cons, List.map_nil]
      cases x 0 <;> norm_num
    · simp only [cpdFactor, List.map_cons, List.map_nil]
      cases x 0 <;> cases x 1 <;> norm_num
    · simp only [cpdFactor, List.map_cons, List.map_nil]
      cases x 1 <;> cases x 2 <;> norm_num
    · simp only [cpdFactor, List.map_cons, List.map_nil]
      cases x 0 <;> cases x 2 <;> cases x 3 <;> norm_num
  normalised := by
    intro n hn x _
    simp only [exFront, cpdsOf, netNodes, List.map_cons, List.map_nil, List.mem_cons, List.not_mem_nil, or_false] at hn
    have hdom : ∀ v ∈ [0, 1, 2, 3], domOf exFront v = [true, false] := by decide
    rcases hn with rfl | rfl | rfl | rfl
    · rw [hdom _ (by simp)]
      simp [cpdFactor]; norm_num
    · rw [hdom _ (by simp)]
      simp only [cpdFactor, List.map_cons, List.map_nil, List.sum_cons, List.sum_nil,
        Function.update_self, Function.update_of_ne (by decide : (0 : ℕ) ≠ 1)]
      cases x 0 <;> norm_num
    · rw [hdom _ (by simp)]
      simp only [cpdFactor, List.map_cons, List.map_nil, List.sum_cons, List.sum_nil,
        Function.update_self, Function.update_of_ne (by decide : (1 : ℕ) ≠ 2)]
      cases x 1 <;> norm_num
    · rw [hdom _ (by simp)]
      simp only [cpdFactor, List.map_cons, List.map_nil, List.sum_cons, List.sum_nil,
        Function.update_self, Function.update_of_ne (by decide : (0 : ℕ) ≠ 3), Function.update_of_ne (by decide : (2 : ℕ) ≠ 3)]
      cases x 0 <;> cases x 2 <;> norm_num

theorem exFront_dom {v : ℕ} (hv : v ∈ exFront.map Prod.fst) : domOf exFront v = [true, false] := by
  have : ∀ v ∈ exFront.map Prod.fst, domOf exFront v = [true, false] := by decide
  exact this v hv

theorem exFront_arrows : arrows (netNodes (cpdsOf exFront)) = [(0, 1), (1, 2), (0, 3), (2, 3)] := by decide

theorem exFront_frontDoor : FrontDoor [((0 : ℕ), (1 : ℕ)), (1, 2), (0, 3), (2, 3)] 1 2 3 where
  intercepts := by
    intro hr
    rcases Relation.ReflTransGen.cases_head hr with h | ⟨c, ⟨hc, hne⟩, _⟩
    · omega
    · simp at hc
      exact hne hc
  unconfounded := by
    intro l hn hh hl ha
    have hcut : cutOut [((0 : ℕ), (1 : ℕ)), (1, 2), (0, 3), (2, 3)] 1 = [(0, 1), (0, 3), (2, 3)] := by decide
    rw [hcut] at ha
    have hlink : ∀ a b : ℕ, Link [(0, 1), (0, 3), (2, 3)] a b → (a = 1 → b = 0) ∧ (a = 0 → b = 1 ∨ b = 3) ∧ (a = 3 → b = 0 ∨ b = 2) := by
      rintro a b (h | h) <;> simp at h <;> omega
    match l, hh, hl with
    | [a], hh, hl => simp at hh hl; omega
    | a :: b :: l, hh, hl =>
      have h1 : a = 1 := by simpa using hh
      subst h1
      have h0 := (hlink _ _ (ha.1 1 b ⟨[], l, rfl⟩)).1 rfl
      subst h0
      match l, hl with
      | [], hl => simp at hl
      | c :: l, hl =>
        have h3 : c = 3 := by
          rcases (hlink _ _ (ha.1 0 c ⟨[1], l, rfl⟩)).2.1 rfl with rfl | h
          · simp at hn
          · exact h
        subst h3
        match l, hl with
        | [], hl => simp at hl
        | d :: l, hl =>
          rcases (hlink _ _ (ha.1 3 d ⟨[1, 0], l, rfl⟩)).2.2 rfl with rfl | rfl
          · simp at hn
          · obtain ⟨z, hz, _⟩ := (ha.2 0 3 2 ⟨[1], l, rfl⟩).1 (by simp)
            exact hz
  shielded := by
    intro l hn hh hl ha
    have hcut : cutOut [((0 : ℕ), (1 : ℕ)), (1, 2), (0, 3), (2, 3)] 2 = [(0, 1), (1, 2), (0, 3)] := by decide
    rw [hcut] at ha
    have hlink : ∀ b : ℕ, Link [(0, 1), (1, 2), (0, 3)] 2 b → b = 1 := by
      rintro b (h | h) <;> simp at h <;> omega
    match l, hh, hl with
    | [a], hh, hl => simp at hh hl; omega
    | a :: b :: l, hh, hl =>
      have h2 : a = 2 := by simpa using hh
      subst h2
      have h1 := hlink _ (ha.1 2 b ⟨[], l, rfl⟩)
      subst h1
      match l, hl with
      | [], hl => simp at hl
      | c :: l, hl => exact (ha.2 2 1 c ⟨[], l, rfl⟩).2 (by simp) rfl

/-- `do_frontdoor` for the effect of 1 on 3; the common cause 0 is not used.  Observing `1 = true` gives `3 = true` the probability 2429/4100, acting gives
203/500. -/
example : ∃ e e' : Engine ℕ Bool ℚ, Reach exNd exFront e ∧ e.doIntervention 1 (.label true true) = (e', .ok ()) ∧
    (∃ (u w : Bool → ℚ) (q : Bool → Bool → ℚ) (out₀ out₁ out' : List (ℕ × List (Bool × ℚ))) (out₂ : Bool → Bool → List (ℕ × List (Bool × ℚ))),
      e.query exNd [] = .ok out₀ ∧ (∀ s' ∈ domOf exFront 1, Gives out₀ 1 s' (u s')) ∧
      e.query exNd [(1, true)] = .ok out₁ ∧ (∀ μ ∈ domOf exFront 2, Gives out₁ 2 μ (w μ)) ∧
      (∀ s' ∈ domOf exFront 1, ∀ μ ∈ domOf exFront 2, e.query exNd [(1, s'), (2, μ)] = .ok (out₂ s' μ) ∧ Gives (out₂ s' μ) 3 true (q s' μ)) ∧
      e'.query exNd [] = .ok out' ∧
      Gives out' 3 true ((domOf exFront 2).map fun μ => w μ * ((domOf exFront 1).map fun s' => u s' * q s' μ).sum).sum) ∧
    massOf (domOf exFront) (netNodes e.cpds) (fun _ => true) (fun x => Agrees [(1, true)] x ∧ x 3 = true) /
      massOf (domOf exFront) (netNodes e.cpds) (fun _ => true) (Agrees [(1, true)]) = 2429 / 4100 ∧
    massOf (domOf exFront) (netNodes e'.cpds) (fun _ => true) (fun x => x 3 = true) = 203 / 500 := by
  obtain ⟨e, _, hr, hcp⟩ := ex_fresh exFront_fitted
  have hacc : ∃ e₁, e.doIntervention 1 (.label true true) = (e₁, .ok ()) := by
    rcases hres : e.doIntervention 1 (.label true true) with ⟨e₁, r⟩
    cases r with
    | ok u => exact ⟨e₁, rfl⟩
    | error err =>
      have := (do_label_rejects_iff exFront_fitted hr 1 true).1.1 ⟨err, by rw [hres]⟩
      rw [hcp] at this
      exact absurd this (by decide)
  obtain ⟨e', he'⟩ := hacc
  obtain ⟨-, -, h3, -⟩ := do_label_cases exFront_fitted hr he'
  have hconn : Connected (netNodes e'.cpds) := by
    have hv : (netNodes e'.cpds).map Node.var = [0, 1, 2, 3] := by rw [h3, hcp]; decide
    have harr : arrows (netNodes e'.cpds) = [(1, 2), (0, 3), (2, 3)] := by
      rw [h3, hcp]; decide
    have h0 : ∀ u ∈ (netNodes e'.cpds).map Node.var, Graph.WConn (arrows (netNodes e'.cpds)) 3 u := by
      intro u hu
      rw [hv] at hu
      rw [harr]
      have : u = 0 ∨ u = 1 ∨ u = 2 ∨ u = 3 := by simpa using hu
      have h2 : Graph.WConn [((1 : ℕ), (2 : ℕ)), (0, 3), (2, 3)] 3 2 := (Graph.wconn_of_mem (by decide)).symm
      rcases this with rfl | rfl | rfl | rfl
      · exact (Graph.wconn_of_mem (by decide)).symm
      · exact h2.trans (Graph.wconn_of_mem (by decide)).symm
      · exact h2
      · exact Relation.ReflTransGen.refl
    intro u hu w hw
    exact (Graph.WConn.symm (h0 u hu)).trans (h0 w hw)
  refine ⟨e, e', hr, he', do_frontdoor exNd_legal exFront_fitted hr he' hconn (x₀ := fun _ => true)
    (fun u hu => by rw [exFront_dom hu]; simp) (by decide) (by decide) ?_ ?_ ?_ (by decide), ?_, ?_⟩
  · rw [hcp, exFront_arrows]
    exact exFront_frontDoor
  · rw [hcp]
    decide +kernel
  · rw [hcp]
    decide +kernel
  · rw [hcp]
    decide +kernel
  · rw [h3, hcp]
    decide +kernel

end Verif.BBN
