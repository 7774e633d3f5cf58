import Verif.BBN.SampleFloat

/-!
# C94: the law of a sample in double precision
-/

namespace Verif.BBN
open Function

section
variable {V S : Type} [LinearOrder V] [DecidableEq S]
variable {nd : Nondet V} {dom : V → List S} {nodes : List (Node V S Dbl)} {x₀ : V → S} {L : ℕ}

/-- How far the bounds of an interval can be from exact. -/
def boundError (dom : V → List S) (nodes : List (Node V S Dbl)) (x₀ : V → S) (L : ℕ) : ℚ :=
  4 * ((answerBound nodes.length L + L : ℕ) / 2 ^ 53) + |totalMass dom nodes x₀ - 1|

theorem boundError_nonneg : 0 ≤ boundError dom nodes x₀ L := by unfold boundError; positivity

theorem abs_min_sub_le {a c : ℚ} (h : c ≤ 1) : |min a 1 - c| ≤ |a - c| := by
  rcases le_total a 1 with ha | ha
  · rw [min_eq_left ha]
  · rw [min_eq_right ha, abs_of_nonneg (by linarith), abs_of_nonneg (by linarith)]
    linarith

/-- A running sum, cut at one, is close to the exact cumulative probability. -/
theorem runSum_near (hM : |totalMass dom nodes x₀ - 1| ≤ 1) (hbig : answerBound nodes.length L + L ≤ 2 ^ 52) {sm : List (V × S)}
    {v : V} {l : List (S × Dbl)} (hs : 0 < scaleOf dom nodes x₀ sm) (hlen : l.length ≤ L)
    (hcl : ∀ q ∈ l, Close (1 / 2 ^ 53) (answerBound nodes.length L) q.2.val
      (condOf dom nodes x₀ sm v q.1 * scaleOf dom nodes x₀ sm))
    (h0 : 0 ≤ (l.map fun q => condOf dom nodes x₀ sm v q.1).sum) (h1 : (l.map fun q => condOf dom nodes x₀ sm v q.1).sum ≤ 1) :
    |min (runSum l) 1 - (l.map fun q => condOf dom nodes x₀ sm v q.1).sum| ≤ boundError dom nodes x₀ L := by
  refine (abs_min_sub_le h1).trans ?_
  have c := (runSum_close l (fun s => condOf dom nodes x₀ sm v s * scaleOf dom nodes x₀ sm) hcl).mono rounds_double
    (m := answerBound nodes.length L + L) (by omega)
  rw [List.sum_map_mul_right] at c
  set C := (l.map fun q => condOf dom nodes x₀ sm v q.1).sum with hC
  set N := answerBound nodes.length L + L with hNdef
  have hN' : (N : ℚ) ≤ 2 ^ 52 := by exact_mod_cast hbig
  have c2 := c.relative rounds_double (by linarith)
  have hsc : |scaleOf dom nodes x₀ sm - 1| ≤ |totalMass dom nodes x₀ - 1| := by
    unfold scaleOf
    split
    · exact le_rfl
    · simp
  have hsc2 : scaleOf dom nodes x₀ sm ≤ 2 := by
    have := (abs_le.1 (hsc.trans hM)).2
    linarith
  have e : runSum l - C = (runSum l - C * scaleOf dom nodes x₀ sm) + C * (scaleOf dom nodes x₀ sm - 1) := by ring
  rw [e]
  refine (abs_add_le _ _).trans ?_
  have hNn : (0 : ℚ) ≤ N * (1 / 2 ^ 53) := by positivity
  have h2 : |C * (scaleOf dom nodes x₀ sm - 1)| ≤ |totalMass dom nodes x₀ - 1| := by
    rw [abs_mul, abs_of_nonneg h0]
    exact (mul_le_of_le_one_left (abs_nonneg _) h1).trans hsc
  have h3 : C * scaleOf dom nodes x₀ sm ≤ 2 := by nlinarith
  have h4 : 2 * (N * (1 / 2 ^ 53)) * (C * scaleOf dom nodes x₀ sm) ≤ 4 * ((N : ℚ) / 2 ^ 53) := by
    have := mul_le_mul_of_nonneg_left h3 (by positivity : (0 : ℚ) ≤ 2 * (N * (1 / 2 ^ 53)))
    linarith
  unfold boundError
  rw [← hNdef]
  linarith

/-- The box of one sample.  For the picks of variables fixed, and for every complete assignment `σ` extending the sample so far, the
random numbers leading to `σ` are exactly a box, and the volume of the box is close to the conditional probability of `σ`. -/
theorem drawLoop_double_law (hnd : nd.Legal) (hN : FloatNet dom nodes) (hx₀ : ∀ v ∈ nodes.map Node.var, x₀ v ∈ dom v)
    (hL : TablesLE nd dom nodes L) (hM : |totalMass dom nodes x₀ - 1| ≤ 1) (hbig : answerBound nodes.length L + L ≤ 2 ^ 52)
    {σ : V → S} (hσ : ∀ v ∈ nodes.map Node.var, σ v ∈ dom v) (fuel : ℕ) (pick : ℕ → ℕ)
    {c : Cache V S Dbl} (hc : FlCacheOK (answerBound nodes.length L) dom nodes x₀ c)
    {sm : List (V × S)} (hg : FlGood dom nodes x₀ sm) (hag : Agrees sm σ) (k : ℕ)
    (hlen : nodes.length = sm.length + k) (hfuel : k ≤ fuel) :
    ∃ lo hi : ℕ → ℚ, (∀ i < k, 0 ≤ lo i ∧ lo i ≤ hi i ∧ hi i ≤ 1) ∧
      |∏ i ∈ Finset.range k, (hi i - lo i) - joint (exactNodes nodes) σ / massOf dom (exactNodes nodes) x₀ (Agrees sm)| ≤
        k * (2 * boundError dom nodes x₀ L) ∧
      ∀ r : ℕ → Dbl, (∀ i, 0 < (r i).val ∧ (r i).val ≤ 1) →
        ((∃ c' s, drawLoop nd dom nodes fuel (fun i => ⟨pick i, r i⟩) c sm = .ok (c', s) ∧ Agrees s σ) ↔
          ∀ i < k, lo i < (r i).val ∧ (r i).val ≤ hi i) := by
  have hjoint := massOf_single hN.wf.exact (dom := dom) (by
    intro n hn
    obtain ⟨m, hm, rfl⟩ := List.mem_map.1 hn
    exact hN.states_nodup m hm) (σ := σ) (by rw [map_var_exact]; exact hσ) x₀
  have hE := boundError_nonneg (dom := dom) (nodes := nodes) (x₀ := x₀) (L := L)
  induction k generalizing fuel pick c sm with
  | zero =>
    refine ⟨fun _ => 0, fun _ => 0, by simp, ?_, ?_⟩
    · have hsub : (nodes.map Node.var) ⊆ sm.map Prod.fst := by
        have hsub : (sm.map Prod.fst).Subperm (nodes.map Node.var) := by
          apply List.subperm_of_subset hg.keys
          intro v hv
          obtain ⟨p, hp, rfl⟩ := List.mem_map.1 hv
          exact (hg.states p hp).1
        exact (hsub.perm_of_length_le (by simp; omega)).symm.subset
      have heq : massOf dom (exactNodes nodes) x₀ (Agrees sm) = joint (exactNodes nodes) σ := by
        rw [← hjoint]
        apply massOf_congr
        intro x
        rw [map_var_exact]
        constructor
        · intro hx v hv
          obtain ⟨p, hp, rfl⟩ := List.mem_map.1 (hsub hv)
          rw [hx p hp, hag p hp]
        · intro hx p hp
          rw [hx p.1 (hg.states p hp).1, hag p hp]
      rw [heq, Finset.prod_range_zero, div_self, sub_self]
      · simp
      · rw [← heq]; exact hg.pos.ne'
    · intro r hr
      have hnl : ¬ sm.length < nodes.length := by omega
      refine ⟨fun _ i hi => absurd hi (by omega), fun _ => ⟨c, sm, ?_, hag⟩⟩
      cases fuel <;> simp only [drawLoop, if_neg hnl]
  | succ k ih =>
    obtain ⟨fuel, rfl⟩ : ∃ f, fuel = f + 1 := ⟨fuel - 1, by omega⟩
    have hlt : sm.length < nodes.length := by omega
    obtain ⟨v, hv, hnew, c', hc', dens, h1, hdb, h2, h4⟩ := drawStep_double_spec hnd hN hx₀ hL hc hg hlt (pick 0)
    have hnn : ∀ q ∈ dens, 0 ≤ q.2.val := fun q hq => (h2 q hq).x_nonneg rounds_double
    have hcn : ∀ s, 0 ≤ condOf dom nodes x₀ sm v s := hN.cond_nonneg hx₀ sm v
    have hsc := scaleOf_pos hN hx₀ hg
    -- the slice of `σ v`
    have hmem : σ v ∈ dens.map Prod.fst := h1.mem_iff.2 (hσ v hv)
    obtain ⟨⟨s, p⟩, hq, hs⟩ := List.mem_map.1 hmem
    dsimp only at hs
    subst hs
    obtain ⟨l₁, l₂, hdec⟩ := List.append_of_mem hq
    have hnd' : (dens.map Prod.fst).Nodup := h1.nodup_iff.2 (by
      obtain ⟨n, hn, rfl⟩ := List.mem_map.1 hv
      exact hN.states_nodup n hn)
    have huniq : ∀ m₁ p' m₂, dens = m₁ ++ (σ v, p') :: m₂ → m₁ = l₁ ∧ p' = p := by
      intro m₁ p' m₂ h
      have hnd'' := hnd'
      rw [hdec] at hnd'' h
      clear hdec hq hmem h1 h2 h4 hnn hnd' hdb
      induction l₁ generalizing m₁ with
      | nil =>
        cases m₁ with
        | nil => simp at h; exact ⟨rfl, h.1.symm⟩
        | cons a m₁ =>
          simp only [List.nil_append, List.cons_append, List.cons.injEq] at h
          obtain ⟨rfl, rfl⟩ := h
          simp at hnd''
      | cons a l₁ ihl =>
        cases m₁ with
        | nil =>
          simp only [List.nil_append, List.cons_append, List.cons.injEq] at h
          obtain ⟨rfl, rfl⟩ := h
          simp at hnd''
        | cons b m₁ =>
          simp only [List.cons_append, List.cons.injEq] at h
          obtain ⟨rfl, h⟩ := h
          have := ihl m₁ h (by
            simp only [List.cons_append, List.map_cons, List.nodup_cons] at hnd''
            exact hnd''.2)
          exact ⟨by rw [this.1], this.2⟩
    have hchoose : ∀ r : Dbl, 0 < r.val → (scan r (cumulative dens) = .ok (σ v) ↔
        runSum l₁ < r.val ∧ r.val ≤ runSum (l₁ ++ [(σ v, p)])) := by
      intro r hr
      rw [scan_double dens hnn hdb r hr]
      constructor
      · rintro ⟨m₁, p', m₂, h, h5, h6⟩
        obtain ⟨rfl, rfl⟩ := huniq m₁ p' m₂ h
        exact ⟨h5, h6⟩
      · rintro ⟨h5, h6⟩
        exact ⟨l₁, p, l₂, hdec, h5, h6⟩
    have hsub1 : ∀ q ∈ l₁ ++ [(σ v, p)], q ∈ dens := by
      intro q hq'
      rw [hdec]
      rcases List.mem_append.1 hq' with h | h
      · exact List.mem_append_left _ h
      · rw [List.mem_singleton] at h
        subst h
        simp
    have hlo0 : 0 ≤ runSum l₁ := runSum_nonneg l₁ fun q hq' => hnn q (hsub1 q (List.mem_append_left _ hq'))
    have hlohi : runSum l₁ ≤ runSum (l₁ ++ [(σ v, p)]) := runSum_mono _ _ fun q hq' => hnn q (hsub1 q hq')
    -- the cut bounds
    set a := min (runSum l₁) 1 with ha
    set b := min (runSum (l₁ ++ [(σ v, p)])) 1 with hb
    have ha0 : 0 ≤ a := le_min hlo0 zero_le_one
    have hab : a ≤ b := min_le_min_right _ hlohi
    have hb1 : b ≤ 1 := min_le_right _ _
    have hcut : ∀ r : Dbl, r.val ≤ 1 → ((runSum l₁ < r.val ∧ r.val ≤ runSum (l₁ ++ [(σ v, p)])) ↔ a < r.val ∧ r.val ≤ b) := by
      intro r hr
      rw [ha, hb, min_lt_iff, le_min_iff]
      constructor
      · rintro ⟨h5, h6⟩
        exact ⟨Or.inl h5, h6, hr⟩
      · rintro ⟨h5, h6, -⟩
        exact ⟨h5.resolve_right (not_lt.2 hr), h6⟩
    -- exact cumulative probabilities
    have hsum : (dens.map fun q => condOf dom nodes x₀ sm v q.1).sum = 1 := by
      have e : (dens.map fun q => condOf dom nodes x₀ sm v q.1) = (dens.map Prod.fst).map (condOf dom nodes x₀ sm v) := by
        rw [List.map_map]; rfl
      rw [e, (h1.map _).sum_eq, hN.cond_sum hx₀ hg.pos hv]
    have hnonneg : ∀ l : List (S × Dbl), 0 ≤ (l.map fun q => condOf dom nodes x₀ sm v q.1).sum := by
      intro l
      apply List.sum_nonneg
      intro x hx
      obtain ⟨q, -, rfl⟩ := List.mem_map.1 hx
      exact hcn _
    have hC2 : ((l₁ ++ [(σ v, p)]).map fun q => condOf dom nodes x₀ sm v q.1).sum =
        (l₁.map fun q => condOf dom nodes x₀ sm v q.1).sum + condOf dom nodes x₀ sm v (σ v) := by simp
    have htop : (l₁.map fun q => condOf dom nodes x₀ sm v q.1).sum + condOf dom nodes x₀ sm v (σ v) ≤ 1 := by
      rw [← hsum, hdec]
      simp only [List.map_append, List.map_cons, List.sum_append, List.sum_cons]
      have := hnonneg l₂
      linarith
    have hlen2 : (l₁ ++ [(σ v, p)]).length ≤ L := by
      have e1 := h1.length_eq
      have e2 := states_le hnd hN hx₀ hL v hv
      rw [List.length_map, hdec, List.length_append, List.length_cons] at e1
      simp only [List.length_append, List.length_cons, List.length_nil]
      omega
    have na := runSum_near hM hbig (v := v) (l := l₁) hsc (by simp at hlen2; omega)
      (fun q hq' => h2 q (hsub1 q (List.mem_append_left _ hq'))) (hnonneg _) (by linarith [hcn (σ v)])
    have nb := runSum_near hM hbig (v := v) (l := l₁ ++ [(σ v, p)]) hsc hlen2 (fun q hq' => h2 q (hsub1 q hq')) (hnonneg _)
      (by rw [hC2]; exact htop)
    rw [hC2, ← hb] at nb
    rw [← ha] at na
    have hw : |(b - a) - condOf dom nodes x₀ sm v (σ v)| ≤ 2 * boundError dom nodes x₀ L := by
      rw [abs_le] at na nb ⊢
      constructor <;> linarith [na.1, na.2, nb.1, nb.2]
    -- a wrong state makes the sample disagree with `σ` for good
    have hwrong : ∀ r : ℕ → Dbl, (∀ i, 0 < (r i).val ∧ (r i).val ≤ 1) → ¬ (a < (r 0).val ∧ (r 0).val ≤ b) →
        ¬ ∃ c' s, drawLoop nd dom nodes (fuel + 1) (fun i => ⟨pick i, r i⟩) c sm = .ok (c', s) ∧ Agrees s σ := by
      rintro r hr hout ⟨c₁, s₁, hd, hag₁⟩
      rw [← hcut _ (hr 0).2, ← hchoose _ (hr 0).1] at hout
      simp only [drawLoop, if_pos hlt, h4] at hd
      cases ht : scan (r 0) (cumulative dens) with
      | error e => rw [ht] at hd; cases hd
      | ok t =>
        rw [ht] at hd hout
        dsimp only at hd
        have htv : t ≠ σ v := fun h => hout (by rw [h])
        have hgood : FlGood dom nodes x₀ (sm ++ [(v, t)]) := by
          rcases drawStep_double hnd hN hx₀ hL hc hg hlt ⟨pick 0, r 0⟩ (hr 0).1 with ⟨e1, -⟩ | ⟨c₂, v₂, s₂, e1, -, e3⟩
          · rw [h4, ht] at e1; cases e1
          · rw [h4, ht] at e1
            simp only [Except.ok.injEq, Prod.mk.injEq, List.append_cancel_left_eq, List.cons.injEq, and_true] at e1
            obtain ⟨-, rfl, rfl⟩ := e1
            exact e3
        rcases drawLoop_double hnd hN hx₀ hL fuel (fun i => ⟨pick (i + 1), r (i + 1)⟩) (fun i => (hr (i + 1)).1) hc' hgood
          (by simp; omega) with ⟨e1, -⟩ | ⟨c₂, ext, e1, -⟩
        · rw [e1] at hd; cases hd
        · rw [e1] at hd
          simp only [Except.ok.injEq, Prod.mk.injEq] at hd
          obtain ⟨-, rfl⟩ := hd
          exact htv (hag₁ (v, t) (by simp)).symm
    by_cases hp0 : p.val = 0
    · -- impossible continuation
      have hab' : b = a := by rw [ha, hb, runSum_zero l₁ (σ v) hp0]
      have h0 : massOf dom (exactNodes nodes) x₀ (fun x => Agrees sm x ∧ x v = σ v) = 0 := by
        have := ((h2 _ hq).eq_zero_iff rounds_double).1 hp0
        dsimp only at this
        rcases mul_eq_zero.1 this with h | h
        · unfold condOf at h
          rcases div_eq_zero_iff.1 h with h | h
          · exact h
          · exact absurd h hg.pos.ne'
        · exact absurd h hsc.ne'
      have hj0 : joint (exactNodes nodes) σ = 0 := by
        apply le_antisymm
        · rw [← hjoint, ← h0]
          apply hN.mass_mono hx₀
          intro x hx
          rw [map_var_exact] at hx
          refine ⟨?_, hx v hv⟩
          intro q hq'
          rw [hx q.1 (hg.states q hq').1, hag q hq']
        · rw [← hjoint]; exact hN.mass_nonneg hx₀ _
      refine ⟨fun _ => a, fun _ => a, fun i _ => ⟨ha0, le_rfl, hab.trans hb1⟩, ?_, ?_⟩
      · rw [Finset.prod_eq_zero (i := 0) (by simp) (by simp), hj0, zero_div, sub_zero, abs_zero]
        positivity
      · intro r hr
        constructor
        · intro h
          exact absurd h (hwrong r hr (by rw [hab']; rintro ⟨h5, h6⟩; exact absurd h5 (not_lt.2 h6)))
        · intro h
          obtain ⟨h5, h6⟩ := h 0 (by omega)
          exact absurd h5 (not_lt.2 h6)
    · have hmpos : 0 < massOf dom (exactNodes nodes) x₀ (fun x => Agrees sm x ∧ x v = σ v) := by
        refine lt_of_le_of_ne (hN.mass_nonneg hx₀ _) fun h0 => hp0 ?_
        rw [(h2 _ hq).eq_zero_iff rounds_double]
        unfold condOf
        dsimp only
        rw [← h0, zero_div, zero_mul]
      have hg' : FlGood dom nodes x₀ (sm ++ [(v, σ v)]) := hg.snoc hv hnew (hσ v hv) hmpos
      have hag' : Agrees (sm ++ [(v, σ v)]) σ := (agrees_append σ).2 ⟨hag, rfl⟩
      obtain ⟨lo, hi, b1, b2, b3⟩ := ih fuel (fun i => pick (i + 1)) hc' hg' hag' (by simp; omega) (by omega)
      refine ⟨fun i => i.casesOn a lo, fun i => i.casesOn b hi, ?_, ?_, ?_⟩
      · intro i hi'
        cases i with
        | zero => exact ⟨ha0, hab, hb1⟩
        | succ i => exact b1 i (by omega)
      · rw [Finset.prod_range_succ']
        simp only
        rw [massOf_congr agrees_append] at b2
        set P := ∏ i ∈ Finset.range k, (hi i - lo i) with hP
        have hP0 : 0 ≤ P := Finset.prod_nonneg fun i hi' => by
          have := b1 i (Finset.mem_range.1 hi')
          linarith
        have hP1 : P ≤ 1 := Finset.prod_le_one (fun i hi' => by
          have := b1 i (Finset.mem_range.1 hi')
          linarith) fun i hi' => by
          have := b1 i (Finset.mem_range.1 hi')
          linarith
        have e : joint (exactNodes nodes) σ / massOf dom (exactNodes nodes) x₀ (Agrees sm) =
            condOf dom nodes x₀ sm v (σ v) *
              (joint (exactNodes nodes) σ / massOf dom (exactNodes nodes) x₀ (fun x => Agrees sm x ∧ x v = σ v)) := by
          unfold condOf
          have := hg.pos.ne'
          have := hmpos.ne'
          field_simp
        set Q := joint (exactNodes nodes) σ / massOf dom (exactNodes nodes) x₀ (fun x => Agrees sm x ∧ x v = σ v)
        rw [e]
        have e2 : P * (b - a) - condOf dom nodes x₀ sm v (σ v) * Q =
            P * ((b - a) - condOf dom nodes x₀ sm v (σ v)) + condOf dom nodes x₀ sm v (σ v) * (P - Q) := by ring
        change |P * (b - a) - condOf dom nodes x₀ sm v (σ v) * Q| ≤ _
        rw [e2]
        refine (abs_add_le _ _).trans ?_
        rw [abs_mul, abs_mul, abs_of_nonneg hP0, abs_of_nonneg (hcn _)]
        have hc1 : condOf dom nodes x₀ sm v (σ v) ≤ 1 := by linarith [hnonneg l₁]
        have t1 := mul_le_of_le_one_left (abs_nonneg ((b - a) - condOf dom nodes x₀ sm v (σ v))) hP1
        have t2 := mul_le_of_le_one_left (abs_nonneg (P - Q)) hc1
        push_cast
        linarith
      · intro r hr
        by_cases hin : a < (r 0).val ∧ (r 0).val ≤ b
        · have hst : drawStep nd dom nodes ⟨pick 0, r 0⟩ c sm = .ok (c', sm ++ [(v, σ v)]) := by
            rw [h4, (hchoose _ (hr 0).1).2 ((hcut _ (hr 0).2).2 hin)]
          have := b3 (fun i => r (i + 1)) fun i => hr (i + 1)
          simp only [drawLoop, if_pos hlt, hst]
          rw [this]
          constructor
          · intro h i hi'
            cases i with
            | zero => exact hin
            | succ i => exact h i (by omega)
          · intro h i hi'
            exact h (i + 1) (by omega)
        · constructor
          · intro h; exact absurd h (hwrong r hr hin)
          · intro h; exact absurd (h 0 (by omega)) hin

/-- Caches that can arise: what earlier samples with the same evidence left behind. -/
inductive FlCacheReach (nd : Nondet V) (dom : V → List S) (nodes : List (Node V S Dbl)) (ev : List (V × S)) : Cache V S Dbl → Prop
  | empty : FlCacheReach nd dom nodes ev []
  | next {c c' : Cache V S Dbl} {rand : ℕ → Draw Dbl} {s : List (V × S)}
      (h : FlCacheReach nd dom nodes ev c) (hr : ∀ i, 0 < (rand i).r.val)
      (hd : drawOne nd dom nodes rand c ev = .ok (c', s)) : FlCacheReach nd dom nodes ev c'

/-- **C94**, the law of a sample in double precision.  Fix how the variables are picked and what earlier samples left in the cache.
For every complete assignment `σ` agreeing with the evidence there is a box of random numbers, one interval `(lo, hi]` in `(0, 1]` for
each variable not in the evidence, such that the sample drawn is `σ` exactly when the random numbers lie in the box.  The volume of the
box differs from the conditional probability of `σ` by at most `2 * boundError` for each variable drawn. -/
theorem draw_sample_double_law (hnd : nd.Legal) (hN : FloatNet dom nodes) (hx₀ : ∀ v ∈ nodes.map Node.var, x₀ v ∈ dom v)
    (hL : TablesLE nd dom nodes L) (hM : |totalMass dom nodes x₀ - 1| ≤ 1) (hbig : answerBound nodes.length L + L ≤ 2 ^ 52)
    {ev : List (V × S)} (hk : (ev.map Prod.fst).Nodup) (hev : GoodEvidence dom nodes ev)
    (hpos : 0 < massOf dom (exactNodes nodes) x₀ (Agrees ev)) {σ : V → S}
    (hσ : ∀ v ∈ nodes.map Node.var, σ v ∈ dom v) (hag : Agrees ev σ) (pick : ℕ → ℕ)
    {c : Cache V S Dbl} (hc : FlCacheReach nd dom nodes ev c) :
    ∃ lo hi : ℕ → ℚ,
      (∀ i < nodes.length - ev.length, 0 ≤ lo i ∧ lo i ≤ hi i ∧ hi i ≤ 1) ∧
      |∏ i ∈ Finset.range (nodes.length - ev.length), (hi i - lo i) -
          joint (exactNodes nodes) σ / massOf dom (exactNodes nodes) x₀ (Agrees ev)| ≤
        (nodes.length - ev.length : ℕ) * (2 * boundError dom nodes x₀ L) ∧
      ∀ r : ℕ → Dbl, (∀ i, 0 < (r i).val ∧ (r i).val ≤ 1) →
        ((∃ c' s, drawOne nd dom nodes (fun i => ⟨pick i, r i⟩) c ev = .ok (c', s) ∧ Agrees s σ) ↔
          ∀ i < nodes.length - ev.length, lo i < (r i).val ∧ (r i).val ≤ hi i) := by
  have hg : FlGood dom nodes x₀ ev := ⟨hk, hev, hpos⟩
  have hc' : FlCacheOK (answerBound nodes.length L) dom nodes x₀ c := by
    induction hc with
    | empty => intro q hq; simp at hq
    | next h hr hd ih =>
      rcases drawLoop_double hnd hN hx₀ hL nodes.length _ hr ih hg (by omega) with ⟨h1, -⟩ | ⟨c', ext, h1, h2, -⟩
      · unfold drawOne at hd
        rw [h1] at hd
        cases hd
      · unfold drawOne at hd
        rw [h1] at hd
        simp only [Except.ok.injEq, Prod.mk.injEq] at hd
        rw [← hd.1]; exact h2
  have hle := hg.length_le
  exact drawLoop_double_law hnd hN hx₀ hL hM hbig hσ nodes.length pick hc' hg hag (nodes.length - ev.length) (by omega) (by omega)

/-! ### The total mass -/

/-- Every row of every table adds up to one up to `η`. -/
def RowsWithin (η : ℚ) (dom : V → List S) (nodes : List (Node V S ℚ)) : Prop :=
  ∀ n ∈ nodes, ∀ x : V → S, (∀ a ∈ n.args, a ≠ n.var → x a ∈ dom a) →
    |((dom n.var).map fun s => n.fn (n.args.map (update x n.var s))).sum - 1| ≤ η

theorem sumOver_le {dom : V → List S} {vs : List V} {f g : (V → S) → ℚ} (h : ∀ x, Valid dom x → f x ≤ g x) {x : V → S}
    (hx : Valid dom x) : sumOver dom vs f x ≤ sumOver dom vs g x := by
  induction vs generalizing x with
  | nil => exact h x hx
  | cons v vs ih =>
    simp only [sumOver]
    exact List.sum_le_sum fun s hs => ih (hx.update dom hs)

theorem sumOver_const_mul {dom : V → List S} {vs : List V} {f : (V → S) → ℚ} (c : ℚ) (x : V → S) :
    sumOver dom vs (fun y => f y * c) x = sumOver dom vs f x * c :=
  sumOver_mul_right dom (g := fun _ => c) (A := ∅) (fun _ _ _ => rfl) (fun _ _ h => h) x

/-- The products of nearly normalised tables of a topologically ordered network add up to nearly one. -/
theorem sumOver_joint_near {dom : V → List S} {η : ℚ} (h0 : 0 ≤ η) (h1 : η ≤ 1) (l : List (Node V S ℚ)) (ht : Topo l)
    (hn : RowsWithin η dom l) (hpos : NonNeg dom l) (hnd : (l.map Node.var).Nodup) {x : V → S} (hx : Valid dom x) :
    (1 - η) ^ l.length ≤ sumOver dom (l.map Node.var) (joint l) x ∧
      sumOver dom (l.map Node.var) (joint l) x ≤ (1 + η) ^ l.length := by
  induction l using List.reverseRecOn generalizing x with
  | nil => simp [sumOver, joint]
  | append_singleton l n ih =>
    rw [List.map_append, List.nodup_append] at hnd
    have hnot : n.var ∉ l.map Node.var := fun h => hnd.2.2 _ h _ (by simp) rfl
    have hn1 : RowsWithin η dom l := fun m hm => hn m (List.mem_append_left _ hm)
    have hp1 : NonNeg dom l := fun m hm => hpos m (List.mem_append_left _ hm)
    obtain ⟨i1, i2⟩ := ih ht.init hn1 hp1 hnd.1 hx
    have hdep : DependsOn (joint l) {v | v ∈ l.map Node.var} := by
      intro a b hab
      unfold joint
      congr 1
      apply List.map_congr_left
      intro m hm
      congr 1
      apply List.map_congr_left
      intro c hc
      apply hab
      obtain ⟨l₁, l₂, rfl⟩ := List.append_of_mem hm
      rcases ht.init l₁ m l₂ rfl c hc with rfl | h
      · simp
      · simp only [Set.mem_setOf_eq, List.map_append]
        exact List.mem_append_left _ h
    have hj : ∀ z, joint (l ++ [n]) z = joint l z * n.fn (n.args.map z) := by
      intro z
      simp [joint]
    have hjn : ∀ z, Valid dom z → 0 ≤ joint l z := by
      intro z hz
      apply List.prod_nonneg
      intro q hq
      obtain ⟨m, hm, rfl⟩ := List.mem_map.1 hq
      exact hp1 m hm z fun a _ => hz a
    have e : ∀ y, sumOver dom [n.var] (joint (l ++ [n])) y =
        joint l y * ((dom n.var).map fun s => n.fn (n.args.map (update y n.var s))).sum := by
      intro y
      rw [sumOver_congr dom hj, sumOver_mul_left dom (g := joint l) hdep (by
        intro v hv
        rw [List.mem_singleton] at hv
        rw [hv]; exact hnot)]
      rfl
    rw [List.map_append, sumOver_append, List.length_append, List.length_singleton, pow_succ, pow_succ]
    simp only [List.map_cons, List.map_nil]
    constructor
    · refine le_trans (mul_le_mul_of_nonneg_right i1 (by linarith)) ?_
      rw [← sumOver_const_mul]
      apply sumOver_le _ hx
      intro y hy
      rw [e]
      apply mul_le_mul_of_nonneg_left _ (hjn y hy)
      have := (abs_le.1 (hn n (by simp) y fun a _ _ => hy a)).1
      linarith
    · refine le_trans ?_ (mul_le_mul_of_nonneg_right i2 (by linarith))
      rw [← sumOver_const_mul]
      apply sumOver_le _ hx
      intro y hy
      rw [e]
      apply mul_le_mul_of_nonneg_left _ (hjn y hy)
      have := (abs_le.1 (hn n (by simp) y fun a _ _ => hy a)).2
      linarith

variable {dom : V → List S} {nodes : List (Node V S Dbl)} {x₀ : V → S}

/-- **C94.** If the network is acyclic and every row of its tables adds up to one up to `η`, `totalMass` is one up to a factor between
`(1 - η) ^ n` and `(1 + η) ^ n`, with `n` the number of nodes. -/
theorem totalMass_near (hN : FloatNet dom nodes) (hac : Graph.Acyclic (arrows (exactNodes nodes)))
    (hx₀ : ∀ v ∈ nodes.map Node.var, x₀ v ∈ dom v) {η : ℚ} (h0 : 0 ≤ η) (h1 : η ≤ 1)
    (hn : RowsWithin η dom (exactNodes nodes)) :
    (1 - η) ^ nodes.length ≤ totalMass dom nodes x₀ ∧ totalMass dom nodes x₀ ≤ (1 + η) ^ nodes.length := by
  obtain ⟨dom', h, hd, hx, hp⟩ := hN.total_dom hx₀
  obtain ⟨res, _, hperm, ht⟩ := getOriginalFactors_spec hN.wf.exact hac
  unfold totalMass
  rw [← massOf_dom_congr h, massOf_perm hperm.symm, massOf_eq_sumOver]
  have hr : RowsWithin η dom' res := by
    intro n hn' x hx'
    have hmem := hperm.mem_iff.1 hn'
    rw [h n.var (List.mem_map_of_mem hmem)]
    exact hn n hmem x fun a ha hne => by rw [← h a (hN.wf.exact.args_sub n hmem a ha)]; exact hx' a ha hne
  have := sumOver_joint_near h0 h1 res ht hr (fun n hn' => hp n (hperm.mem_iff.1 hn'))
    ((hperm.map Node.var).nodup_iff.2 hN.wf.exact.nodup) hx
  rw [hperm.length_eq, List.length_map] at this
  have e : sumOver dom' (res.map Node.var) (fun x => if True then joint res x else 0) x₀ =
      sumOver dom' (res.map Node.var) (joint res) x₀ := sumOver_congr dom' (fun x => by simp) x₀
  rw [e]
  exact this

/-- **C94**, the same in terms of the bound on the random numbers of `draw_samples_double`. -/
theorem safeBound_near (hN : FloatNet dom nodes) (hac : Graph.Acyclic (arrows (exactNodes nodes)))
    (hx₀ : ∀ v ∈ nodes.map Node.var, x₀ v ∈ dom v) {η : ℚ} (h0 : 0 ≤ η) (h1 : η ≤ 1) (hn : RowsWithin η dom (exactNodes nodes))
    {L : ℕ} (hbig : answerBound nodes.length L + L ≤ 2 ^ 53) :
    1 - ((answerBound nodes.length L + L : ℕ) / 2 ^ 53 + nodes.length * η) ≤ safeBound dom nodes x₀ L := by
  obtain ⟨a, -⟩ := totalMass_near hN hac hx₀ h0 h1 hn
  have hb : 1 - nodes.length * η ≤ (1 - η) ^ nodes.length := by
    have := one_add_mul_le_pow (a := -η) (by linarith) nodes.length
    simpa [sub_eq_add_neg] using this
  have hone : (1 - η) ^ nodes.length ≤ 1 := pow_le_one₀ (by linarith) (by linarith)
  have hm : (1 - η) ^ nodes.length ≤ min 1 (totalMass dom nodes x₀) := le_min hone a
  have hb' : ((answerBound nodes.length L + L : ℕ) : ℚ) ≤ 2 ^ 53 := by exact_mod_cast hbig
  unfold safeBound
  push_cast at hb' ⊢
  set B : ℚ := (answerBound nodes.length L : ℚ) + L with hB
  have hB0 : 0 ≤ B / 2 ^ 53 := by positivity
  have hB1 : B / 2 ^ 53 ≤ 1 := by rw [div_le_one (by positivity)]; exact hb'
  have hnn : 0 ≤ (nodes.length : ℚ) * η := by positivity
  have h5 := mul_le_mul_of_nonneg_left (hb.trans hm) (by linarith : 0 ≤ 1 - B / 2 ^ 53)
  nlinarith [mul_nonneg hB0 hnn]

end

/-! ### Examples -/

theorem exDouble_net : FloatNet exDom (exNodes.map toDouble) where
  wf := toDouble_wf
  nonempty := by decide
  connected := toDouble_connected
  states_nodup := by intro n _; simp [exDom]
  nonneg := toDouble_nonneg

/-- Rounding every entry of normalised tables leaves the rows within `2 ^ (-53)` of one. -/
theorem toDouble_rows {dom : ℕ → List Bool} {nodes : List (Node ℕ Bool ℚ)} (hw : ∀ n ∈ nodes, n.var ∈ n.args)
    (hp : NonNeg dom nodes) (hn : Normalised dom nodes) : RowsWithin (1 / 2 ^ 53) dom (exactNodes (nodes.map toDouble)) := by
  intro n hn' x hx
  obtain ⟨m, hm, rfl⟩ := List.mem_map.1 hn'
  obtain ⟨k, hk, rfl⟩ := List.mem_map.1 hm
  have h1 := hn k hk x hx
  have hnn : ∀ s ∈ dom k.var, 0 ≤ k.fn (k.args.map (update x k.var s)) := by
    intro s hs
    refine hp k hk _ fun a ha => ?_
    by_cases h : a = k.var
    · subst h; simpa using hs
    · rw [update_of_ne h]; exact hx a ha h
  have aux : ∀ l : List Bool, (∀ s ∈ l, s ∈ dom k.var) →
      |(l.map fun s => Float.rnd (k.fn (k.args.map (update x k.var s)))).sum -
        (l.map fun s => k.fn (k.args.map (update x k.var s))).sum| ≤
      (l.map fun s => k.fn (k.args.map (update x k.var s))).sum / 2 ^ 53 := by
    intro l hl
    induction l with
    | nil => simp
    | cons s l ih =>
      simp only [List.map_cons, List.sum_cons]
      have i := abs_le.1 (ih fun t ht => hl t (List.mem_cons_of_mem _ ht))
      have j := Float.rnd_near (k.fn (k.args.map (update x k.var s)))
      rw [abs_of_nonneg (hnn s (hl s List.mem_cons_self)), abs_le] at j
      rw [add_div, abs_le]
      constructor <;> linarith [i.1, i.2, j.1, j.2]
  have := aux (dom k.var) fun _ h => h
  rw [h1] at this
  exact this

theorem exDouble_rows : RowsWithin (1 / 2 ^ 53) exDom (exactNodes (exNodes.map toDouble)) :=
  toDouble_rows (by decide) exNodes_network.nonneg exNodes_network.normalised

theorem exDouble_acyclic : Graph.Acyclic (arrows (exactNodes (exNodes.map toDouble))) := exNodes_network.acyclic

theorem exDouble_tables : TablesLE exNd exDom (exNodes.map toDouble) 8 :=
  table_bound exNd_legal toDouble_wf (x₀ := fun _ => true) (by intro v _; simp [exDom])

/-- On the example no random number up to `1 - 10 ^ (-12)` leads to an exception. -/
example (rand : ℕ → ℕ → Draw Dbl) (hr : ∀ k i, 0 < (rand k i).r.val ∧ (rand k i).r.val ≤ 1 - 1 / 10 ^ 12) :
    ∃ ss, drawSamples exNd exDom (exNodes.map toDouble) [] 100 rand = .ok ss ∧ ss.length = 100 ∧
      ∀ s ∈ ss, (s.map Prod.fst).Perm [0, 1, 2] := by
  have hx₀ : ∀ v ∈ (exNodes.map toDouble).map Node.var, (fun _ => true : ℕ → Bool) v ∈ exDom v := by intro v _; simp [exDom]
  have hs := safeBound_near exDouble_net exDouble_acyclic hx₀ (by norm_num) (by norm_num) exDouble_rows (L := 8) (by decide)
  have hb : answerBound (exNodes.map toDouble).length 8 = 861 := by decide
  rw [hb] at hs
  have hpos : 0 < totalMass exDom (exNodes.map toDouble) (fun _ => true) := by
    refine lt_of_lt_of_le ?_ (totalMass_near exDouble_net exDouble_acyclic hx₀ (by norm_num) (by norm_num) exDouble_rows).1
    norm_num
  rcases draw_samples_double exNd_legal exDouble_net hx₀ exDouble_tables (ev := []) (by simp) (by intro p hp; simp at hp)
    (by
      refine lt_of_lt_of_eq hpos (massOf_congr ?_)
      intro x
      simp [Agrees]) 100 rand fun k i => (hr k i).1 with ⟨-, k, i, h⟩ | ⟨ss, h1, h2, h3⟩
  · exfalso
    have := (hr k i).2
    have hl : (exNodes.map toDouble).length = 3 := rfl
    rw [hl] at hs
    norm_num at hs
    norm_num at this
    linarith
  · exact ⟨ss, h1, h2, fun s hs => (h3 s hs).2.1⟩

/-- On the example, with the evidence `2 = true`, the box of `0 = true, 1 = true` has the volume `P(0, 1 | 2)` up to `10 ^ (-11)`. -/
example (pick : ℕ → ℕ) : ∃ lo hi : ℕ → ℚ, (∀ i < 2, 0 ≤ lo i ∧ lo i ≤ hi i ∧ hi i ≤ 1) ∧
    |∏ i ∈ Finset.range 2, (hi i - lo i) - joint (exactNodes (exNodes.map toDouble)) (fun _ => true) /
        massOf exDom (exactNodes (exNodes.map toDouble)) (fun _ => true) (Agrees [(2, true)])| ≤ 1 / 10 ^ 11 := by
  have hx₀ : ∀ v ∈ (exNodes.map toDouble).map Node.var, (fun _ => true : ℕ → Bool) v ∈ exDom v := by intro v _; simp [exDom]
  obtain ⟨a, b⟩ := totalMass_near exDouble_net exDouble_acyclic hx₀ (by norm_num) (by norm_num) exDouble_rows
  have hl : (exNodes.map toDouble).length = 3 := rfl
  rw [hl] at a b
  have hM : |totalMass exDom (exNodes.map toDouble) (fun _ => true) - 1| ≤ 1 / 10 ^ 15 := by
    rw [abs_le]
    constructor
    · refine le_trans ?_ (sub_le_sub_right a 1); norm_num
    · refine le_trans (sub_le_sub_right b 1) ?_; norm_num
  obtain ⟨lo, hi, h1, h2, -⟩ := draw_sample_double_law exNd_legal exDouble_net hx₀ exDouble_tables
    (hM.trans (by norm_num)) (by decide) (ev := [(2, true)]) (by decide)
    (by
      intro p hp
      simp only [List.mem_singleton] at hp
      subst hp
      exact ⟨by decide, by decide⟩) (by decide +kernel) (σ := fun _ => true) (by intro v _; simp [exDom])
    (by intro p hp; simp only [List.mem_singleton] at hp; subst hp; rfl) pick .empty
  refine ⟨lo, hi, h1, h2.trans ?_⟩
  have hb : answerBound (exNodes.map toDouble).length 8 = 861 := by decide
  unfold boundError
  rw [hb, hl]
  norm_num at hM ⊢
  linarith

/-- Seven equally likely states, as after fitting on seven rows with seven different values. -/
def sevenNode : Node ℕ ℕ Dbl := { args := [0], fn := fun _ => ⟨Float.rnd (1 / 7)⟩, var := 0 }

/-- **C94**, the exception is possible: with a single variable with seven equally likely states, the largest number `random.random`
returns, `1 - 2 ^ (-53)`, is above the sum `1 - 2 ^ (-52)` of the seven doubles nearest to `1 / 7`, and `draw_samples` raises
`IndexError`. -/
theorem draw_samples_index_error :
    drawSamples exNd (fun _ => [0, 1, 2, 3, 4, 5, 6]) [sevenNode] [] 1 (fun _ _ => ⟨0, ⟨1 - 1 / 2 ^ 53⟩⟩) = .error .indexError := by
  decide +kernel

/-- One variable whose first state is impossible. -/
def neverNode : Node ℕ Bool Dbl := { args := [0], fn := fun | [true] => ⟨0⟩ | _ => ⟨1⟩, var := 0 }

/-- **C28**, **C94**, why random numbers have to be positive: with `random.random() = 0.0` an impossible state is drawn. -/
theorem draw_samples_zero :
    drawSamples exNd exDom [neverNode] [] 1 (fun _ _ => ⟨0, ⟨0⟩⟩) = .ok [[(0, true)]] ∧
      massOf exDom (exactNodes [neverNode]) (fun _ => true) (Agrees [(0, true)]) = 0 := by
  decide +kernel

end Verif.BBN
