import Verif.BBN.EngineFloatInv

/-!
# C92: interventions in double precision
-/

namespace Verif.BBN
open Function

/-! ### Specification -/

/-- Python floats (without overflow and underflow). -/
abbrev Dbl := Fl Float.rnd

section spec
variable {V S : Type} [LinearOrder V] [DecidableEq S]

/-- The answer to a query if assignments to the variables `vs` have the weights `J`: the weight of `w = s`, divided by the weight of the
evidence if there is some. -/
def answerWith (dom : V → List S) (vs : List V) (J : (V → S) → ℚ) (x₀ : V → S) (ev : List (V × S)) (w : V) (s : S) : ℚ :=
  if ev = [] then massWith dom vs J x₀ (fun x => x w = s)
  else massWith dom vs J x₀ (fun x => Agrees ev x ∧ x w = s) / massWith dom vs J x₀ (Agrees ev)

/-- A query result reports, for exactly the variables `vs`, exactly the states of each variable, each with the probability `P` up to a
relative error of `ε`, and with exactly zero if and only if `P` is zero. -/
structure ReportsNear (dom : V → List S) (vs : List V) (P : V → S → ℚ) (ε : ℚ) (out : List (V × List (S × Dbl))) : Prop where
  vars : out.map Prod.fst = vs
  states : ∀ q ∈ out, (q.2.map Prod.fst).Perm (dom q.1)
  probs : ∀ q ∈ out, ∀ r ∈ q.2,
    0 ≤ r.2.val ∧ (r.2.val = 0 ↔ P q.1 r.1 = 0) ∧ |r.2.val - P q.1 r.1| ≤ ε * P q.1 r.1

end spec

section
variable {V S : Type} [LinearOrder V] [DecidableEq S]
variable {bn : List (V × Frame V S Dbl)} {e : Engine V S Dbl}

/-! ### Which distributions are accepted -/

theorem pySum_val (l : List Dbl) : (pySum l).val = Float.floatSum (l.map Fl.val) := by
  unfold pySum Float.floatSum
  have : ∀ a : Dbl, (l.foldl (· + ·) a).val = (l.map Fl.val).foldl (fun a x => Float.rnd (a + x)) a.val := by
    induction l with
    | nil => intro a; rfl
    | cons x l ih => intro a; exact ih (a + x)
  exact this 0

theorem pySum_eq_one {d : List (S × Dbl)} : pySum (d.map Prod.snd) = 1 ↔ Float.floatSum (d.map fun q => q.2.val) = 1 := by
  rw [Fl.ext_iff, pySum_val, List.map_map]
  rfl

theorem toFinset_eq_iff {l m : List S} : l.toFinset = m.toFinset ↔ ∀ s, s ∈ l ↔ s ∈ m := by
  rw [Finset.ext_iff]; simp

/-- **C92.** A dict is accepted exactly when the node is a parent of another one, the sum of the values, computed from left to right in
double precision, is exactly one, all values are between zero and one, and the keys are the states of the node.  A rejected
intervention changes nothing. -/
theorem do_double_iff {nd : Nondet V} (hf : FlFitted bn) (he : FlReach nd bn e) (v : V) (d : List (S × Dbl)) :
    ((e.doFl v (.dict d)).2 = .ok () ↔
      (∃ q ∈ e.cpds, v ∈ q.2.parents) ∧ Float.floatSum (d.map fun q => q.2.val) = 1 ∧
        (∀ q ∈ d, 0 ≤ q.2.val ∧ q.2.val ≤ 1) ∧ ∀ s, s ∈ d.map Prod.fst ↔ s ∈ domOf bn v) ∧
    ∀ a err, (e.doFl v a).2 = .error err → (e.doFl v a).1 = e := by
  have hi := he.inv hf
  have key : IsParent e.cpds v ∧ FlOk (domOf bn v) d ↔
      (∃ q ∈ e.cpds, v ∈ q.2.parents) ∧ Float.floatSum (d.map fun q => q.2.val) = 1 ∧
        (∀ q ∈ d, 0 ≤ q.2.val ∧ q.2.val ≤ 1) ∧ ∀ s, s ∈ d.map Prod.fst ↔ s ∈ domOf bn v := by
    constructor
    · rintro ⟨h1, h2⟩
      exact ⟨h1, pySum_eq_one.1 h2.sum, fun q hq => ⟨h2.nonneg q hq, h2.le_one q hq⟩, toFinset_eq_iff.1 h2.states⟩
    · rintro ⟨h1, h2, h3, h4⟩
      exact ⟨h1, pySum_eq_one.2 h2, fun q hq => (h3 q hq).2, fun q hq => (h3 q hq).1, toFinset_eq_iff.2 h4⟩
  constructor
  · rw [← key]
    rcases hi.do_cases hf v (.dict d) with ⟨err, h, hno⟩ | ⟨e', hp, hok, h, _, _⟩
    · rw [h]
      constructor
      · intro h'; cases h'
      · intro h'; exact absurd h' hno
    · rw [h]
      exact ⟨fun _ => ⟨hp, hok⟩, fun _ => rfl⟩
  · intro a err herr
    rcases hi.do_cases hf v a with ⟨err', h, _⟩ | ⟨e', _, _, h, _, _⟩
    · rw [h]
    · rw [h] at herr; cases herr

/-- **C92.** For a node with two states, a probability and its complement as computed in double precision are always accepted, in both
orders. -/
theorem do_double_two {nd : Nondet V} (hf : FlFitted bn) (he : FlReach nd bn e) {v : V} (hp : ∃ q ∈ e.cpds, v ∈ q.2.parents)
    {s t : S} (hdom : ∀ u, u ∈ domOf bn v ↔ u = s ∨ u = t) {p : ℚ} (hd : Float.IsDouble p) (h0 : 0 ≤ p) (h1 : p ≤ 1) :
    (e.doFl v (.dict [(s, ⟨p⟩), (t, ⟨Float.rnd (1 - p)⟩)])).2 = .ok () ∧
    (e.doFl v (.dict [(t, ⟨Float.rnd (1 - p)⟩), (s, ⟨p⟩)])).2 = .ok () := by
  have hq0 : 0 ≤ Float.rnd (1 - p) := Float.rnd_nonneg (by linarith)
  have hq1 : Float.rnd (1 - p) ≤ 1 := by
    have := Float.rnd_mono (show 0 ≤ 1 - p by linarith) (show 1 - p ≤ 1 by linarith)
    rwa [show Float.rnd 1 = 1 from Float.isDouble_one] at this
  have hpr : Float.rnd p = p := hd
  have hc := Float.rnd_complement hd h0 h1
  constructor
  · refine (do_double_iff hf he v _).1.2 ⟨hp, ?_, ?_, ?_⟩
    · simp only [List.map_cons, List.map_nil, Float.floatSum, List.foldl_cons, List.foldl_nil, zero_add, hpr]
      exact hc
    · simp only [List.mem_cons, List.not_mem_nil, or_false]
      rintro q (rfl | rfl)
      · exact ⟨h0, h1⟩
      · exact ⟨hq0, hq1⟩
    · intro u; rw [hdom]; simp
  · refine (do_double_iff hf he v _).1.2 ⟨hp, ?_, ?_, ?_⟩
    · simp only [List.map_cons, List.map_nil, Float.floatSum, List.foldl_cons, List.foldl_nil, zero_add, Float.rnd_rnd]
      rw [add_comm]
      exact hc
    · simp only [List.mem_cons, List.not_mem_nil, or_false]
      rintro q (rfl | rfl)
      · exact ⟨hq0, hq1⟩
      · exact ⟨h0, h1⟩
    · intro u; rw [hdom]; simp [or_comm]

/-- **C92.** The values of an accepted dict add up to one, up to the rounding errors of the additions. -/
theorem do_double_sum {nd : Nondet V} (hf : FlFitted bn) (he : FlReach nd bn e) {v : V} {d : List (S × Dbl)}
    (hd : ∀ q ∈ d, Float.IsDouble q.2.val) (hdo : (e.doFl v (.dict d)).2 = .ok ()) :
    |(d.map fun q => q.2.val).sum - 1| ≤ (d.length - 1 : ℕ) / 2 ^ 53 := by
  obtain ⟨_, h1, h2, _⟩ := (do_double_iff hf he v d).1.1 hdo
  have := Float.floatSum_error (l := d.map fun q => q.2.val)
    (by
      intro x hx
      obtain ⟨q, hq, rfl⟩ := List.mem_map.1 hx
      exact (h2 q hq).1)
    (by
      intro x hx
      obtain ⟨q, hq, rfl⟩ := List.mem_map.1 hx
      exact hd q hq)
  rw [h1, List.length_map, abs_sub_comm] at this
  refine this.trans (le_of_eq ?_)
  ring

theorem floatSum_grid (ms : List ℕ) (a : ℕ) (h : a + ms.sum ≤ 2 ^ 53) :
    (ms.map fun m : ℕ => (m : ℚ) / 2 ^ 53).foldl (fun a x => Float.rnd (a + x)) ((a : ℚ) / 2 ^ 53) = ((a + ms.sum : ℕ) : ℚ) / 2 ^ 53 := by
  induction ms generalizing a with
  | nil => simp
  | cons m ms ih =>
    simp only [List.sum_cons] at h
    simp only [List.map_cons, List.foldl_cons, List.sum_cons]
    have e : Float.rnd ((a : ℚ) / 2 ^ 53 + (m : ℚ) / 2 ^ 53) = ((a + m : ℕ) : ℚ) / 2 ^ 53 := by
      have e1 : (a : ℚ) / 2 ^ 53 + (m : ℚ) / 2 ^ 53 = ((a + m : ℕ) : ℚ) / 2 ^ 53 := by push_cast; ring
      rw [e1]
      by_cases hlt : a + m < 2 ^ 53
      · have := Float.rnd_exact (m := ((a + m : ℕ) : ℤ)) (j := -53) (by rw [abs_of_nonneg (by positivity)]; exact_mod_cast hlt)
        have e2 : (((a + m : ℕ) : ℤ) : ℚ) * 2 ^ (-53 : ℤ) = ((a + m : ℕ) : ℚ) / 2 ^ 53 := by
          rw [Int.cast_natCast, zpow_neg, div_eq_mul_inv]; norm_cast
        rwa [e2] at this
      · have : a + m = 2 ^ 53 := by omega
        rw [this]
        have : (((2 ^ 53 : ℕ) : ℚ)) / 2 ^ 53 = 1 := by norm_num
        rw [this]; exact Float.isDouble_one
    rw [e, ih (a + m) (by omega)]
    congr 2
    omega

/-- **C92.** A distribution whose values are multiples of `2^-53` that add up to exactly one is accepted in every order. -/
theorem do_double_grid {nd : Nondet V} (hf : FlFitted bn) (he : FlReach nd bn e) {v : V} (hp : ∃ q ∈ e.cpds, v ∈ q.2.parents)
    {d : List (S × ℕ)} (hs : ∀ s, s ∈ d.map Prod.fst ↔ s ∈ domOf bn v) (hsum : (d.map Prod.snd).sum = 2 ^ 53) :
    (e.doFl v (.dict (d.map fun q => (q.1, ⟨(q.2 : ℚ) / 2 ^ 53⟩)))).2 = .ok () := by
  refine (do_double_iff hf he v _).1.2 ⟨hp, ?_, ?_, ?_⟩
  · have h := floatSum_grid (d.map Prod.snd) 0 (by rw [hsum]; norm_num)
    rw [hsum] at h
    unfold Float.floatSum
    rw [List.map_map] at h ⊢
    simp only [Nat.cast_zero, zero_div] at h
    refine h.trans ?_
    norm_num
  · intro q hq
    obtain ⟨r, hr, rfl⟩ := List.mem_map.1 hq
    have h1 : r.2 ≤ 2 ^ 53 := by rw [← hsum]; exact List.single_le_sum (by simp) _ (List.mem_map_of_mem hr)
    have h2 : (r.2 : ℚ) ≤ 2 ^ 53 := by exact_mod_cast h1
    refine ⟨by dsimp only; positivity, ?_⟩
    dsimp only
    rw [div_le_one (by norm_num)]
    exact h2
  · intro s
    rw [← hs, List.map_map]
    rfl

theorem floatSum_point {l : List S} (hl : l.Nodup) (s : S) :
    Float.floatSum (l.map fun t => if t = s then (1 : ℚ) else 0) = if s ∈ l then 1 else 0 := by
  have h0 : ∀ l : List S, s ∉ l → ∀ a, Float.IsDouble a →
      (l.map fun t => if t = s then (1 : ℚ) else 0).foldl (fun a x => Float.rnd (a + x)) a = a := by
    intro l hl a ha
    induction l with
    | nil => rfl
    | cons t l ih =>
      rw [List.mem_cons, not_or] at hl
      simp only [List.map_cons, List.foldl_cons]
      rw [if_neg (fun h => hl.1 h.symm), add_zero, show Float.rnd a = a from ha]
      exact ih hl.2
  unfold Float.floatSum
  induction l with
  | nil => rfl
  | cons t l ih =>
    rw [List.nodup_cons] at hl
    simp only [List.map_cons, List.foldl_cons, zero_add]
    by_cases h : t = s
    · subst h
      rw [if_pos rfl, if_pos List.mem_cons_self, show Float.rnd 1 = 1 from Float.isDouble_one]
      exact h0 l hl.1 1 Float.isDouble_one
    · rw [if_neg h, Float.rnd_zero, ih hl.2]
      have : s ∈ t :: l ↔ s ∈ l := by rw [List.mem_cons]; exact or_iff_right fun h' => h h'.symm
      simp only [this]

/-- **C92.** An `int` label is accepted exactly when the node is a parent of another one and the label is one of its states; rounding
never gets in the way.  Any other label is rejected. -/
theorem do_double_label {nd : Nondet V} (hf : FlFitted bn) (he : FlReach nd bn e) (v : V) (s : S) :
    ((e.doFl v (.label true s)).2 = .ok () ↔ (∃ q ∈ e.cpds, v ∈ q.2.parents) ∧ s ∈ domOf bn v) ∧
    (e.doFl v (.label false s)).2 ≠ .ok () := by
  have hi := he.inv hf
  have hpt : ((domOf bn v).map fun t => (t, if t = s then (1 : Dbl) else 0)).map (fun q => q.2.val) =
      (domOf bn v).map fun t => if t = s then (1 : ℚ) else 0 := by
    rw [List.map_map]
    apply List.map_congr_left
    intro t _
    dsimp only [comp]
    split <;> rfl
  constructor
  · rcases hi.do_cases hf v (.label true s) with ⟨err, h, hno⟩ | ⟨e', hp, hok, h, _, _⟩
    · rw [h]
      constructor
      · intro h'; cases h'
      · rintro ⟨hp, hs⟩
        have hvm := hi.isParent_mem hf hp
        refine absurd ⟨hp, ?_, ?_, ?_, ?_⟩ hno
        · rw [pySum_eq_one]
          dsimp only [FlArg.entries]
          rw [hpt, floatSum_point (hf.states_nodup v hvm), if_pos hs]
        · intro q hq
          obtain ⟨t, _, rfl⟩ := List.mem_map.1 hq
          dsimp only
          split
          · exact le_rfl
          · exact zero_le_one
        · intro q hq
          obtain ⟨t, _, rfl⟩ := List.mem_map.1 hq
          dsimp only
          split
          · exact zero_le_one
          · exact le_rfl
        · dsimp only [FlArg.entries]
          rw [List.map_map]
          congr 1
          exact List.map_id _
    · rw [h]
      refine ⟨fun _ => ⟨hp, ?_⟩, fun _ => rfl⟩
      have h1 := pySum_eq_one.1 hok.sum
      dsimp only [FlArg.entries] at h1
      rw [hpt, floatSum_point (hf.states_nodup v (hi.isParent_mem hf hp))] at h1
      by_contra hs
      rw [if_neg hs] at h1
      exact absurd h1 (by norm_num)
  · rcases hi.do_cases hf v (.label false s) with ⟨err, h, hno⟩ | ⟨e', hp, hok, h, _, _⟩
    · rw [h]; intro h'; cases h'
    · have := hok.sum
      exact absurd (congrArg Fl.val this) (by simp [FlArg.entries, pySum, Fl.zero_val, Fl.one_val])

/-! ### Queries -/

/-- The exact values of a table. -/
def Cpd.exact (c : Cpd V S Dbl) : Cpd V S ℚ := ⟨c.states, c.parents, fun s ps => (c.p s ps).val⟩

theorem netNodes_exact (cpds : List (V × Cpd V S Dbl)) :
    (netNodes cpds).map Node.exact = netNodes (cpds.map fun q => (q.1, q.2.exact)) := by
  unfold netNodes
  rw [List.map_map, List.map_map]
  apply List.map_congr_left
  intro q _
  simp only [comp, Node.exact, cpdFactor, Cpd.exact]
  congr 2
  funext a
  cases a <;> rfl

theorem setCpd_exact (cpds : List (V × Cpd V S Dbl)) (v : V) (d : Dist S Dbl) :
    ((setCpd cpds v (interventionCpd V d)).map fun q => (q.1, q.2.exact)) =
      setCpd (cpds.map fun q => (q.1, q.2.exact)) v (interventionCpd V ⟨d.keys, fun s => (d.val s).val⟩) := by
  unfold setCpd
  rw [List.map_map, List.map_map]
  apply List.map_congr_left
  intro q _
  simp only [comp]
  by_cases h : q.1 = v
  · rw [if_pos h, if_pos h]
    unfold Cpd.exact interventionCpd
    dsimp only
    congr 2
    funext s _
    split <;> rfl
  · rw [if_neg h, if_neg h]

/-- **C92.** After every history of operations a query is answered from the current tables, as long as the graph is connected: the
relative error of every answer is at most `2 * N / 2^53`. -/
theorem query_double_engine {nd : Nondet V} (hnd : nd.Legal) (hf : FlFitted bn) (he : FlReach nd bn e)
    (hconn : Connected (netNodes e.cpds)) {x₀ : V → S} (hx₀ : ∀ v ∈ bn.map Prod.fst, x₀ v ∈ domOf bn v)
    {ev : List (V × S)} (hk : (ev.map Prod.fst).Nodup) (hev : ∀ p ∈ ev, p.1 ∈ bn.map Prod.fst ∧ p.2 ∈ domOf bn p.1) {L : ℕ}
    (hL : ∀ jt, buildJoinTree nd e.bbn = .ok jt → ∀ c ∈ jt.cliques, ∏ v ∈ c, (domOf bn v).length ≤ L)
    (hN : answerBound bn.length L ≤ 2 ^ 52) :
    ∃ out, e.query nd ev = .ok out ∧ ReportsNear (domOf bn) (bn.map Prod.fst)
      (answerWith (domOf bn) (bn.map Prod.fst) (joint ((netNodes e.cpds).map Node.exact)) x₀ ev)
      (2 * answerBound bn.length L / 2 ^ 53) out := by
  have hi := he.inv hf
  have hp := hi.bbn_perm hf
  have hvm : ∀ v, v ∈ e.bbn.map Node.var ↔ v ∈ bn.map Prod.fst := by
    intro v
    rw [← hi.vars, ← netNodes_vars]; exact (hp.map Node.var).mem_iff
  have hw := (hi.wf hf).1.perm hp.symm
  have hne : e.bbn ≠ [] := by
    intro h
    rw [h] at hp
    have h1 := hp.symm.eq_nil
    have h2 : e.cpds.map Prod.fst = [] := by rw [← netNodes_vars, h1]; rfl
    rw [hi.vars] at h2
    exact hf.nonempty (by simpa using h2)
  have hlen : e.bbn.length = bn.length := by
    rw [hp.length_eq]
    unfold netNodes
    rw [List.length_map, ← List.length_map (f := Prod.fst), hi.vars, List.length_map]
  have hpx : (e.bbn.map Node.exact).Perm ((netNodes e.cpds).map Node.exact) := hp.map _
  have hvx : ((netNodes e.cpds).map Node.exact).map Node.var = bn.map Prod.fst := by
    rw [netNodes_exact, netNodes_vars, List.map_map, ← hi.vars]; rfl
  obtain ⟨res, h1, h2, h3⟩ := query_double (x₀ := x₀) (ev := ev) (L := L) hnd (dom := domOf bn) hw hne (hconn.perm hp.symm)
    (fun n hn => hf.states_nodup _ ((hvm _).1 (List.mem_map_of_mem hn)))
    (fun v hv => hx₀ v ((hvm v).1 hv))
    (by
      intro m hm x hx
      have h := hi.nonneg hf m (hpx.mem_iff.1 hm) x
      rw [hi.dom_eq] at h
      exact h hx)
    hk (fun p hp' => ⟨(hvm _).2 (hev p hp').1, (hev p hp').2⟩) hL (by rw [hlen]; exact hN)
  refine ⟨_, by unfold Engine.query; rw [hi.dom_eq, h1]; rfl, ?_, ?_, ?_⟩
  · rw [List.map_map, ← hi.vars]; rfl
  · intro q hq
    obtain ⟨c, hcm, rfl⟩ := List.mem_map.1 hq
    dsimp only
    rw [List.map_map]
    have hv : c.1 ∈ e.bbn.map Node.var := (hvm _).2 (hi.vars ▸ List.mem_map_of_mem hcm)
    have h4 := (h2.filter fun q => decide (q.1 = c.1)).map Prod.snd
    rw [allStates_filter hw.nodup hv] at h4
    rw [List.filter_map, List.map_map] at h4
    exact h4
  · intro q hq r hr
    obtain ⟨c, hcm, rfl⟩ := List.mem_map.1 hq
    obtain ⟨m, hm, rfl⟩ := List.mem_map.1 hr
    obtain ⟨hm1, hm2⟩ := List.mem_filter.1 hm
    have hm2 : m.1.1 = c.1 := of_decide_eq_true hm2
    have h4 := h3 m.1.1 m.1.2 m.2 hm1
    have ha : exactAnswer (domOf bn) (e.bbn.map Node.exact) x₀ ev m.1.1 m.1.2 =
        answerWith (domOf bn) (bn.map Prod.fst) (joint ((netNodes e.cpds).map Node.exact)) x₀ ev c.1 m.1.2 := by
      unfold exactAnswer answerWith
      rw [massOf_perm hpx, massOf_perm hpx, massOf_perm hpx, hm2]
      unfold massOf massWith
      rw [hvx]
    rw [ha, hlen] at h4
    exact h4

/-- **C92.** After an accepted intervention, and as long as the graph without the arrows into the node is connected, queries are answered
from the truncated factorisation: the table of the node is replaced by the given values, all other tables are kept.  The relative
error of every answer is at most `2 * N / 2^53`. -/
theorem do_double_truncated {nd : Nondet V} (hnd : nd.Legal) (hf : FlFitted bn) (he : FlReach nd bn e) {e' : Engine V S Dbl} {v : V}
    {d : List (S × Dbl)} (hdo : e.doFl v (.dict d) = (e', .ok ())) (hconn : Connected (netNodes e'.cpds))
    {x₀ : V → S} (hx₀ : ∀ v ∈ bn.map Prod.fst, x₀ v ∈ domOf bn v)
    {ev : List (V × S)} (hk : (ev.map Prod.fst).Nodup) (hev : ∀ p ∈ ev, p.1 ∈ bn.map Prod.fst ∧ p.2 ∈ domOf bn p.1) {L : ℕ}
    (hL : ∀ jt, buildJoinTree nd e'.bbn = .ok jt → ∀ c ∈ jt.cliques, ∏ v ∈ c, (domOf bn v).length ≤ L)
    (hN : answerBound bn.length L ≤ 2 ^ 52) :
    ∃ out, e'.query nd ev = .ok out ∧ ReportsNear (domOf bn) (bn.map Prod.fst)
      (answerWith (domOf bn) (bn.map Prod.fst)
        (truncated ((netNodes e.cpds).map Node.exact) v fun s => ((d.lookup s).getD 0).val) x₀ ev)
      (2 * answerBound bn.length L / 2 ^ 53) out := by
  have he' : FlReach nd bn e' := by
    obtain ⟨okName, e₀, ops, h1, rfl⟩ := he
    refine ⟨okName, e₀, ops ++ [.doIt v (.dict d)], h1, ?_⟩
    unfold Engine.runFl at hdo ⊢
    rw [List.foldl_append]
    simp only [List.foldl_cons, List.foldl_nil, Engine.stepFl]
    rw [hdo]
  have hi := he.inv hf
  rcases hi.do_cases hf v (.dict d) with ⟨err, h, _⟩ | ⟨e₁, hp, hok, h, hi', hcp⟩
  · rw [h] at hdo; cases hdo
  · rw [h] at hdo
    cases hdo
    obtain ⟨out, h1, h2⟩ := query_double_engine hnd hf he' hconn hx₀ hk hev hL hN
    refine ⟨out, h1, ?_⟩
    have hvm := hi.isParent_mem hf hp
    have hm : ∀ (A : (V → S) → Prop) [DecidablePred A],
        massWith (domOf bn) (bn.map Prod.fst) (joint ((netNodes e'.cpds).map Node.exact)) x₀ A =
        massWith (domOf bn) (bn.map Prod.fst)
          (truncated ((netNodes e.cpds).map Node.exact) v fun s => ((d.lookup s).getD 0).val) x₀ A := by
      intro A _
      unfold massWith
      congr 1
      apply List.map_congr_left
      intro x hx
      rw [hcp, netNodes_exact, setCpd_exact, netNodes_exact]
      have hvars : (e.cpds.map fun q => (q.1, q.2.exact)).map Prod.fst = bn.map Prod.fst := by
        rw [List.map_map, ← hi.vars]; rfl
      refine joint_truncated (by rw [hvars]; exact hf.nodup) (by rw [hvars]; exact hvm) _ x ?_
      have hxv := (worlds_valid (List.mem_filter.1 hx).1 v).1 hvm
      have hs := hok.states
      dsimp only [FlArg.entries] at hs ⊢
      unfold distOf
      dsimp only
      rw [hs, List.mem_toFinset]
      exact hxv
    have ha : answerWith (domOf bn) (bn.map Prod.fst) (joint ((netNodes e'.cpds).map Node.exact)) x₀ ev =
        answerWith (domOf bn) (bn.map Prod.fst)
          (truncated ((netNodes e.cpds).map Node.exact) v fun s => ((d.lookup s).getD 0).val) x₀ ev := by
      funext w s
      unfold answerWith
      rw [hm, hm, hm]
    rw [ha] at h2
    exact h2

end

end Verif.BBN
