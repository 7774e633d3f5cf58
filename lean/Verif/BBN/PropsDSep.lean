import Verif.BBN.DSep
import Verif.BBN.SampleLemmas

/-!
# C99: queries respect d-separation
-/

namespace Verif.BBN
open Function Graph

section
variable {V S K : Type} [LinearOrder V] [DecidableEq S] [Field K] [LinearOrder K] [IsStrictOrderedRing K]

omit [IsStrictOrderedRing K] in
/-- Two reports with the same probabilities for `v` have the same dictionary for it. -/
theorem Reports.same {dom : V → List S} {vs : List V} {P P' : V → S → K} {out out' : List (V × List (S × K))}
    (h : Reports dom vs P out) (h' : Reports dom vs P' out') {v : V} (hv : v ∈ vs) (hP : ∀ s, P v s = P' v s) :
    ∃ r r', out.lookup v = some r ∧ out'.lookup v = some r' ∧ r.Perm r' := by
  obtain ⟨r, hr⟩ := (lookup_isSome_iff out v).2 (by rw [h.vars]; exact hv)
  obtain ⟨r', hr'⟩ := (lookup_isSome_iff out' v).2 (by rw [h'.vars]; exact hv)
  refine ⟨r, r', hr, hr', ?_⟩
  have e1 : r = (r.map Prod.fst).map fun s => (s, P v s) := by
    rw [List.map_map]
    conv_lhs => rw [← List.map_id r]
    apply List.map_congr_left
    intro a ha
    have := h.probs _ (lookup_mem hr) a ha
    exact Prod.ext rfl this
  have e2 : r' = (r'.map Prod.fst).map fun s => (s, P v s) := by
    rw [List.map_map]
    conv_lhs => rw [← List.map_id r']
    apply List.map_congr_left
    intro a ha
    have := h'.probs _ (lookup_mem hr') a ha
    exact Prod.ext rfl (this.trans (hP _).symm)
  rw [e1, e2]
  exact ((h.states _ (lookup_mem hr)).trans (h'.states _ (lookup_mem hr')).symm).map _

/-- **C99.** Let `e` be an engine built from a fitted network, after any history of interventions, resets and queries, whose current graph is in one piece.
If in the current graph the variable `v` is d-separated by the variables of the evidence `ev` from every variable of the further evidence
`ev'`, and all the evidence together has positive probability, then a query with `ev` and one with `ev` and `ev'` both succeed
and report the same dictionary of probabilities for `v`. -/
theorem query_dsep {nd : Nondet V} (hnd : nd.Legal) {bn : List (V × Frame V S K)} (hf : Fitted bn) {e : Engine V S K} (he : Reach nd bn e)
    (hconn : Connected (netNodes e.cpds)) {x₀ : V → S} (hx₀ : ∀ u ∈ bn.map Prod.fst, x₀ u ∈ domOf bn u)
    {ev ev' : List (V × S)} (hk : ((ev ++ ev').map Prod.fst).Nodup)
    (hev : ∀ p ∈ ev ++ ev', p.1 ∈ bn.map Prod.fst ∧ p.2 ∈ domOf bn p.1)
    (hpos : 0 < massOf (domOf bn) (netNodes e.cpds) x₀ (Agrees (ev ++ ev')))
    {v : V} (hv : v ∈ bn.map Prod.fst) (hvev : v ∉ ev.map Prod.fst)
    (hsep : ∀ w ∈ ev'.map Prod.fst, DSeparated (arrows (netNodes e.cpds)) (· ∈ ev.map Prod.fst) v w) :
    ∃ out out' r r', e.query nd ev = .ok out ∧ e.query nd (ev ++ ev') = .ok out' ∧
      out.lookup v = some r ∧ out'.lookup v = some r' ∧ r.Perm r' := by
  have hi := he.inv hf
  have hN := hi.network hf hconn
  have hx : ∀ u ∈ (netNodes e.cpds).map Node.var, x₀ u ∈ e.dom u := by
    rw [netNodes_vars, hi.vars, hi.dom_eq]; exact hx₀
  have hgood : GoodEvidence e.dom (netNodes e.cpds) (ev ++ ev') := by
    intro p hp
    rw [netNodes_vars, hi.vars, hi.dom_eq]
    exact hev p hp
  have hgood1 : GoodEvidence e.dom (netNodes e.cpds) ev := fun p hp => hgood p (List.mem_append_left _ hp)
  rw [← hi.dom_eq] at hpos
  have hk1 : (ev.map Prod.fst).Nodup := by
    rw [List.map_append] at hk
    exact (List.nodup_append.1 hk).1
  have hpos1 : 0 < massOf e.dom (netNodes e.cpds) x₀ (Agrees ev) :=
    lt_of_lt_of_le hpos (massOf_mono' hN hx fun x h p hp => h p (List.mem_append_left _ hp))
  obtain ⟨out, h1, h2⟩ := hi.query_reports hnd hf hconn (by rw [← netNodes_vars]; exact hx) hk1 hgood1 hpos1
  obtain ⟨out', h1', h2'⟩ := hi.query_reports hnd hf hconn (by rw [← netNodes_vars]; exact hx) hk hgood hpos
  obtain ⟨r, r', hr, hr', hp⟩ := h2.same h2' (v := v) (by rw [hi.vars]; exact hv) fun s => by
    have := massOf_dsep hN.wf hN.acyclic hN.states_nodup hN.normalised hx hk1 hgood1
      (v := v) (by rw [netNodes_vars, hi.vars]; exact hv) hvev hsep s
    rw [div_eq_div_iff (ne_of_gt hpos1) (ne_of_gt hpos)]
    exact this.symm
  exact ⟨out, out', r, r', h1, h1', hr, hr', hp⟩

end

/-! ### Examples -/

/-- In `0 → 1 → 2` the middle node separates the ends. -/
theorem exChain_dsep : DSeparated [(0, 1), (1, 2)] (· ∈ ([(1, true)] : List (ℕ × Bool)).map Prod.fst) 2 0 := by
  intro l hn hh hl ha
  have hlink : ∀ a b : ℕ, Link [(0, 1), (1, 2)] a b → (a = 2 → b = 1) ∧ (a = 1 → b = 0 ∨ b = 2) := by
    rintro a b (h | h) <;> simp at h <;> omega
  match l, hh, hl with
  | [a], hh, hl => simp at hh hl; omega
  | a :: b :: l, hh, hl =>
    have h2 : a = 2 := by simpa using hh
    subst h2
    have h1 := (hlink _ _ (ha.1 2 b ⟨[], l, rfl⟩)).1 rfl
    subst h1
    match l, hl with
    | [], hl => simp at hl
    | c :: l, hl =>
      have h0 := (hlink _ _ (ha.1 1 c ⟨[2], l, rfl⟩)).2 rfl
      have hc : c ≠ 2 := by
        rintro rfl
        simp at hn
      rcases h0 with rfl | rfl
      · exact (ha.2 2 1 0 ⟨[], l, rfl⟩).2 (by simp) (by simp)
      · exact hc rfl

/-- In `0 → 2 ← 1` the ends are separated without evidence. -/
theorem exCollider_dsep : DSeparated [(0, 2), (1, 2)] (· ∈ ([] : List (ℕ × Bool)).map Prod.fst) 0 1 := by
  intro l hn hh hl ha
  have hlink : ∀ a b : ℕ, Link [(0, 2), (1, 2)] a b → (a = 0 → b = 2) ∧ (a = 2 → b = 0 ∨ b = 1) := by
    rintro a b (h | h) <;> simp at h <;> omega
  match l, hh, hl with
  | [a], hh, hl => simp at hh hl; omega
  | a :: b :: l, hh, hl =>
    have h2 : a = 0 := by simpa using hh
    subst h2
    have h1 := (hlink _ _ (ha.1 0 b ⟨[], l, rfl⟩)).1 rfl
    subst h1
    match l, hl with
    | [], hl => simp at hl
    | c :: l, hl =>
      have h0 := (hlink _ _ (ha.1 2 c ⟨[0], l, rfl⟩)).2 rfl
      have hc : c ≠ 0 := by
        rintro rfl
        simp at hn
      rcases h0 with rfl | rfl
      · exact hc rfl
      · obtain ⟨z, hz, _⟩ := (ha.2 0 2 1 ⟨[], l, rfl⟩).1 (by simp)
        simp at hz

/-- `query_dsep` in the network `0 → 1 → 2`: if the state of 1 is known, observing 0 does not change what is reported for 2. -/
example : ∃ e : Engine ℕ Bool ℚ, Reach exNd exChain e ∧ ∃ out out' r r', e.query exNd [(1, true)] = .ok out ∧
    e.query exNd ([(1, true)] ++ [(0, false)]) = .ok out' ∧ out.lookup 2 = some r ∧ out'.lookup 2 = some r' ∧ r.Perm r' := by
  obtain ⟨e, _, hr, hcp⟩ := ex_fresh exChain_fitted
  refine ⟨e, hr, query_dsep exNd_legal exChain_fitted hr (by rw [hcp]; exact exChain_fitted.connected) (x₀ := fun _ => true)
    (fun u hu => by rw [exChain_dom hu]; simp) (by decide) (by decide) ?_ (by decide) (by decide) ?_⟩
  · rw [hcp]
    decide +kernel
  · rw [hcp]
    intro w hw
    have : w = 0 := by simpa using hw
    subst this
    exact exChain_dsep

/-- `query_dsep` after an intervention on 1 in the network `0 → 1 → 2`, `0 → 2`: the arrow from 0 to 1 is cut, and observing 1 does not change
what is reported for 0.  Given the state of their common child 2 this would be wrong: the probability of `0 = true` is
9/16 if `2 = true` and 12/19 if also `1 = true`. -/
example : ∃ e e' : Engine ℕ Bool ℚ, Reach exNd exBn e ∧ e.doIntervention 1 (.dist exDist) = (e', .ok ()) ∧
    (∃ out out' r r', e'.query exNd [] = .ok out ∧ e'.query exNd ([] ++ [(1, true)]) = .ok out' ∧
      out.lookup 0 = some r ∧ out'.lookup 0 = some r' ∧ r.Perm r') ∧
    massOf (domOf exBn) (netNodes e'.cpds) (fun _ => true) (fun x => Agrees [(2, true)] x ∧ x 0 = true) /
      massOf (domOf exBn) (netNodes e'.cpds) (fun _ => true) (Agrees [(2, true)]) ≠
    massOf (domOf exBn) (netNodes e'.cpds) (fun _ => true) (fun x => Agrees [(2, true), (1, true)] x ∧ x 0 = true) /
      massOf (domOf exBn) (netNodes e'.cpds) (fun _ => true) (Agrees [(2, true), (1, true)]) := by
  obtain ⟨e, _, hr, hcp⟩ := ex_fresh exBn_fitted
  obtain ⟨e', h1, hr', h3⟩ := ex_do exBn_fitted (fun _ => exBn_dom) hr (v := 1) (by rw [hcp]; decide)
  have harr : arrows (netNodes e'.cpds) = [(0, 2), (1, 2)] := by
    rw [h3, hcp]; decide
  refine ⟨e, e', hr, h1, query_dsep exNd_legal exBn_fitted hr' ?_ (x₀ := fun _ => true)
    (fun u hu => by rw [exBn_dom hu]; simp) (by decide) (by decide) ?_ (by decide) (by decide) ?_, ?_⟩
  · have hv : (netNodes e'.cpds).map Node.var = [0, 1, 2] := by rw [h3, hcp]; decide
    have h0 : ∀ u ∈ (netNodes e'.cpds).map Node.var, Graph.WConn (arrows (netNodes e'.cpds)) 2 u := by
      intro u hu
      rw [hv] at hu
      rw [harr]
      have : u = 0 ∨ u = 1 ∨ u = 2 := by simpa using hu
      rcases this with rfl | rfl | rfl
      · exact (Graph.wconn_of_mem (by decide)).symm
      · exact (Graph.wconn_of_mem (by decide)).symm
      · exact Relation.ReflTransGen.refl
    intro u hu w hw
    exact (Graph.WConn.symm (h0 u hu)).trans (h0 w hw)
  · rw [h3, hcp]
    decide +kernel
  · rw [harr]
    intro w hw
    have : w = 1 := by simpa using hw
    subst this
    exact exCollider_dsep
  · rw [h3, hcp]
    decide +kernel

end Verif.BBN
