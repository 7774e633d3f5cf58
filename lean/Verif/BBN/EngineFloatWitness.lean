import Verif.BBN.EngineFloatProps

/-!
# C92: examples, and what goes wrong with more than two states
-/

namespace Verif.BBN
open Function

/-- The float nearest to a number. -/
def dbl (q : ℚ) : Dbl := ⟨Float.rnd q⟩

/-- The network `0 → 1 → 2`, `0 → 2` with two, `k` and two states. -/
def exFl (k : ℕ) : List (ℕ × Frame ℕ ℕ Dbl) :=
  [(0, ⟨[0, 1], [], fun s _ => if s = 0 then dbl (3/10) else dbl (7/10)⟩),
   (1, ⟨List.range k, [0], fun _ _ => dbl (1/k)⟩),
   (2, ⟨[0, 1], [0, 1], fun s ps => if s = 0 then (if ps = [0, 1] then dbl (1/5) else dbl (9/10))
      else (if ps = [0, 1] then dbl (4/5) else dbl (1/10))⟩)]

theorem dbl_nonneg {q : ℚ} (h : 0 ≤ q) : 0 ≤ (dbl q).val := Float.rnd_nonneg h

theorem exFl_arrows (k : ℕ) : arrows (netNodes (cpdsOf (exFl k))) = [(0, 1), (0, 2), (1, 2)] := rfl

theorem exFl_fitted (k : ℕ) : FlFitted (exFl k) where
  wf := ⟨by change ([0, 1, 2] : List ℕ).Nodup; decide,
    by
      intro n hn
      obtain ⟨q, _, rfl⟩ := List.mem_map.1 hn
      simp [cpdFactor],
    by
      intro n hn
      simp only [exFl, cpdsOf, netNodes, List.map_cons, List.map_nil, List.mem_cons, List.not_mem_nil, or_false] at hn
      rcases hn with rfl | rfl | rfl <;> simp [cpdFactor],
    by
      intro n hn a ha
      change a ∈ ([0, 1, 2] : List ℕ)
      simp only [exFl, cpdsOf, netNodes, List.map_cons, List.map_nil, List.mem_cons, List.not_mem_nil, or_false] at hn
      rcases hn with rfl | rfl | rfl <;> simp [cpdFactor] at ha ⊢ <;> omega⟩
  nonempty := by simp [exFl]
  acyclic := by rw [exFl_arrows]; exact acyclic_of_lt (by decide)
  connected := by
    have h0 : ∀ u ∈ (netNodes (cpdsOf (exFl k))).map Node.var, Graph.WConn (arrows (netNodes (cpdsOf (exFl k)))) 0 u := by
      intro u hu
      have hu : u ∈ ([0, 1, 2] : List ℕ) := hu
      rw [exFl_arrows]
      have : u = 0 ∨ u = 1 ∨ u = 2 := by simpa using hu
      rcases this with rfl | rfl | rfl
      · exact Relation.ReflTransGen.refl
      · exact Graph.wconn_of_mem (by decide)
      · exact Graph.wconn_of_mem (by decide)
    intro u hu w hw
    exact (Graph.WConn.symm (h0 u hu)).trans (h0 w hw)
  states_nodup := by
    intro v hv
    have hv : v ∈ ([0, 1, 2] : List ℕ) := hv
    simp only [List.mem_cons, List.not_mem_nil, or_false] at hv
    rcases hv with rfl | rfl | rfl
    · change ([0, 1] : List ℕ).Nodup; decide
    · exact List.nodup_range
    · change ([0, 1] : List ℕ).Nodup; decide
  nonneg := by
    intro m hm x _
    obtain ⟨n, hn, rfl⟩ := List.mem_map.1 hm
    simp only [exFl, cpdsOf, netNodes, List.map_cons, List.map_nil, List.mem_cons, List.not_mem_nil, or_false] at hn
    rcases hn with rfl | rfl | rfl
    · simp only [Node.exact, cpdFactor, List.map_cons, List.map_nil]
      split <;> exact dbl_nonneg (by norm_num)
    · simp only [Node.exact, cpdFactor, List.map_cons, List.map_nil]
      exact dbl_nonneg (by positivity)
    · simp only [Node.exact, cpdFactor, List.map_cons, List.map_nil]
      split <;> split <;> exact dbl_nonneg (by norm_num)

theorem exFl_fresh (k : ℕ) : ∃ e : Engine ℕ ℕ Dbl, FlReach exNd (exFl k) e ∧ e.cpds = cpdsOf (exFl k) := by
  obtain ⟨e, h⟩ := (exFl_fitted k).create (okName := fun _ => true) (fun _ _ => rfl)
  exact ⟨e, ⟨_, e, [], h, rfl⟩, (Engine.FlInv.created (exFl_fitted k) h).2⟩

theorem exFl_parent (k : ℕ) {e : Engine ℕ ℕ Dbl} (h : e.cpds = cpdsOf (exFl k)) : ∃ q ∈ e.cpds, 1 ∈ q.2.parents := by
  rw [h]
  exact ⟨_, List.mem_cons_of_mem _ (List.mem_cons_of_mem _ List.mem_cons_self), by simp⟩

/-- **C92, disagreement.** With three states the order of the dict decides: the probabilities 0.1, 0.2 and 0.7 are accepted in this order
and rejected in the reverse order. -/
theorem do_double_order : ∃ e : Engine ℕ ℕ Dbl, FlFitted (exFl 3) ∧ FlReach exNd (exFl 3) e ∧
    (e.doFl 1 (.dict [(0, dbl (1/10)), (1, dbl (2/10)), (2, dbl (7/10))])).2 = .ok () ∧
    (e.doFl 1 (.dict [(2, dbl (7/10)), (1, dbl (2/10)), (0, dbl (1/10))])).2 ≠ .ok () := by
  obtain ⟨e, hr, hc⟩ := exFl_fresh 3
  refine ⟨e, exFl_fitted 3, hr, ?_, ?_⟩
  · rw [(do_double_iff (exFl_fitted 3) hr 1 _).1]
    refine ⟨exFl_parent 3 hc, by decide +kernel, by decide +kernel, ?_⟩
    intro s
    change s ∈ ([0, 1, 2] : List ℕ) ↔ s ∈ List.range 3
    simp only [List.mem_cons, List.not_mem_nil, or_false, List.mem_range]
    omega
  · rw [Ne, (do_double_iff (exFl_fitted 3) hr 1 _).1]
    rintro ⟨_, h, _⟩
    exact absurd h (by decide +kernel)

/-- **C92, disagreement.** The uniform distribution over ten states, given by the float 0.1 for each state, is rejected in every order. -/
theorem do_double_uniform : ∃ e : Engine ℕ ℕ Dbl, FlFitted (exFl 10) ∧ FlReach exNd (exFl 10) e ∧
    ∀ l : List ℕ, l.Perm (domOf (exFl 10) 1) → (e.doFl 1 (.dict (l.map fun s => (s, dbl (1/10))))).2 ≠ .ok () := by
  obtain ⟨e, hr, hc⟩ := exFl_fresh 10
  refine ⟨e, exFl_fitted 10, hr, ?_⟩
  intro l hl
  rw [Ne, (do_double_iff (exFl_fitted 10) hr 1 _).1]
  rintro ⟨_, h, _⟩
  have hlen : l.length = 10 := hl.length_eq
  rw [List.map_map] at h
  have e1 : l.map ((fun q : ℕ × Dbl => q.2.val) ∘ fun s => (s, dbl (1/10))) = List.replicate 10 (Float.rnd (1/10)) := by
    rw [← hlen]
    exact List.map_const' ..
  rw [e1] at h
  exact absurd h (by decide +kernel)

/-- The hypotheses of `do_double_two` are met: in the fresh engine with two states, the probability 0.1 and its complement. -/
example : ∃ e : Engine ℕ ℕ Dbl, FlReach exNd (exFl 2) e ∧
    (e.doFl 1 (.dict [(0, ⟨Float.rnd (1/10)⟩), (1, ⟨Float.rnd (1 - Float.rnd (1/10))⟩)])).2 = .ok () := by
  obtain ⟨e, hr, hc⟩ := exFl_fresh 2
  refine ⟨e, hr, (do_double_two (exFl_fitted 2) hr (exFl_parent 2 hc) (s := 0) (t := 1) ?_ (Float.isDouble_rnd _)
    (by decide +kernel) (by decide +kernel)).1⟩
  intro u
  change u ∈ List.range 2 ↔ _
  rw [List.mem_range]
  omega

/-- The hypotheses of `do_double_truncated` are met by an intervention in the middle of the network: the arrow `0 → 1` is cut, and the
answers given `2 = 0` are correct to twelve digits. -/
example : ∃ e e' : Engine ℕ ℕ Dbl, FlReach exNd (exFl 3) e ∧
    e.doFl 1 (.dict [(0, dbl (1/10)), (1, dbl (2/10)), (2, dbl (7/10))]) = (e', .ok ()) ∧
    arrows (netNodes e.cpds) = [(0, 1), (0, 2), (1, 2)] ∧ arrows (netNodes e'.cpds) = [(0, 2), (1, 2)] ∧
    ∃ out, e'.query exNd [(2, 0)] = .ok out ∧ ReportsNear (domOf (exFl 3)) [0, 1, 2]
      (answerWith (domOf (exFl 3)) [0, 1, 2] (truncated ((netNodes e.cpds).map Node.exact) 1 fun s =>
        (([(0, dbl (1/10)), (1, dbl (2/10)), (2, dbl (7/10))].lookup s).getD 0).val) (fun _ => 0) [(2, 0)])
      (1 / 10 ^ 12) out := by
  obtain ⟨e, hr, hc⟩ := exFl_fresh 3
  have hf := exFl_fitted 3
  have hacc : (e.doFl 1 (.dict [(0, dbl (1/10)), (1, dbl (2/10)), (2, dbl (7/10))])).2 = .ok () := by
    rw [(do_double_iff hf hr 1 _).1]
    refine ⟨exFl_parent 3 hc, by decide +kernel, by decide +kernel, ?_⟩
    intro s
    change s ∈ ([0, 1, 2] : List ℕ) ↔ s ∈ List.range 3
    simp only [List.mem_cons, List.not_mem_nil, or_false, List.mem_range]
    omega
  rcases (hr.inv hf).do_cases hf 1 (.dict [(0, dbl (1/10)), (1, dbl (2/10)), (2, dbl (7/10))]) with
    ⟨err, h, _⟩ | ⟨e', hp, hok, h, hi', hcp⟩
  · rw [h] at hacc; cases hacc
  have harr : arrows (netNodes e'.cpds) = [(0, 2), (1, 2)] := by rw [hcp, hc]; rfl
  have hvars : (netNodes e'.cpds).map Node.var = [0, 1, 2] := by rw [hcp, hc]; rfl
  have hconn : Connected (netNodes e'.cpds) := by
    have h0 : ∀ u ∈ (netNodes e'.cpds).map Node.var, Graph.WConn (arrows (netNodes e'.cpds)) 2 u := by
      intro u hu
      rw [hvars] at hu
      rw [harr]
      have : u = 0 ∨ u = 1 ∨ u = 2 := by simpa using hu
      rcases this with rfl | rfl | rfl
      · exact (Graph.wconn_of_mem (by decide)).symm
      · exact (Graph.wconn_of_mem (by decide)).symm
      · exact Relation.ReflTransGen.refl
    intro u hu w hw
    exact (Graph.WConn.symm (h0 u hu)).trans (h0 w hw)
  refine ⟨e, e', hr, h, by rw [hc]; rfl, harr, ?_⟩
  have hb := hi'.bbn_perm hf
  have hx₀ : ∀ v ∈ (exFl 3).map Prod.fst, 0 ∈ domOf (exFl 3) v := by
    intro v hv
    have hv : v ∈ ([0, 1, 2] : List ℕ) := hv
    simp only [List.mem_cons, List.not_mem_nil, or_false] at hv
    rcases hv with rfl | rfl | rfl <;> decide
  have hL := table_bound (dom := domOf (exFl 3)) exNd_legal ((hi'.wf hf).1.perm hb.symm) (x₀ := fun _ => 0)
    (by
      intro v hv
      rw [(hb.map Node.var).mem_iff, netNodes_vars, hi'.vars] at hv
      exact hx₀ v hv)
  have hprod : (e'.bbn.map fun n => (domOf (exFl 3) n.var).length).prod = 12 := by
    rw [(hb.map fun n => (domOf (exFl 3) n.var).length).prod_eq]
    have : (netNodes e'.cpds).map (fun n => (domOf (exFl 3) n.var).length) =
        ((netNodes e'.cpds).map Node.var).map fun v => (domOf (exFl 3) v).length := by rw [List.map_map]; rfl
    rw [this, hvars]
    decide
  rw [hprod] at hL
  obtain ⟨out, h1, h2⟩ := do_double_truncated exNd_legal hf hr h hconn hx₀ (ev := [(2, 0)]) (by decide)
    (by
      intro p hp
      simp only [List.mem_singleton] at hp
      subst hp
      exact ⟨by decide, by decide⟩) hL (by decide)
  refine ⟨out, h1, h2.vars, h2.states, ?_⟩
  intro q hq r hr'
  obtain ⟨a, b, c⟩ := h2.probs q hq r hr'
  refine ⟨a, b, c.trans (mul_le_mul_of_nonneg_right ?_ ?_)⟩
  · have : answerBound (exFl 3).length 12 = 1121 := by decide
    rw [this]
    norm_num
  · by_contra hneg
    push Not at hneg
    have h3 := abs_nonneg (r.2.val - answerWith (domOf (exFl 3)) [0, 1, 2] (truncated ((netNodes e.cpds).map Node.exact) 1 fun s =>
        (([(0, dbl (1/10)), (1, dbl (2/10)), (2, dbl (7/10))].lookup s).getD 0).val) (fun _ => 0) [(2, 0)] q.1 r.1)
    have hpos : (0 : ℚ) < 2 * (answerBound (exFl 3).length 12 : ℚ) / 2 ^ 53 := by
      have : answerBound (exFl 3).length 12 = 1121 := by decide
      rw [this]; norm_num
    have h4 := h3.trans c
    have h5 := mul_neg_of_pos_of_neg hpos hneg
    exact absurd h4 (not_le.2 h5)

end Verif.BBN
