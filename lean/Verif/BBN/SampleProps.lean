import Verif.BBN.SampleLemmas
import Mathlib.Algebra.BigOperators.GroupWithZero.Finset
import Mathlib.Tactic.FieldSimp

/-!
# C28: sampling
-/

namespace Verif.BBN
open Function

section
variable {V S K : Type} [LinearOrder V] [DecidableEq S] [Field K] [LinearOrder K]
  [IsStrictOrderedRing K]
variable {nd : Nondet V} {dom : V → List S} {nodes : List (Node V S K)} {x₀ : V → S}

theorem dens_nonneg (hN : IsNetwork dom nodes)
    (hx₀ : ∀ v ∈ nodes.map Node.var, x₀ v ∈ dom v) {sm : List (V × S)} {v : V}
    {dens : List (S × K)}
    (h : ∀ q ∈ dens, q.2 = massOf dom nodes x₀ (fun x => Agrees sm x ∧ x v = q.1) /
          massOf dom nodes x₀ (Agrees sm)) : ∀ q ∈ dens, 0 ≤ q.2 := by
  intro q hq
  rw [h q hq]
  exact div_nonneg (massOf_nonneg' hN hx₀ _) (massOf_nonneg' hN hx₀ _)

/-- One step with `0 < r ≤ 1` succeeds and keeps the sample good. -/
theorem drawStep_ok (hnd : nd.Legal) (hN : IsNetwork dom nodes)
    (hx₀ : ∀ v ∈ nodes.map Node.var, x₀ v ∈ dom v) {c : Cache V S K}
    (hc : CacheOK dom nodes x₀ c) {sm : List (V × S)} (hg : Good dom nodes x₀ sm)
    (hlt : sm.length < nodes.length) (d : Draw K) (hr : 0 < d.r ∧ d.r ≤ 1) :
    ∃ c' v s, drawStep nd dom nodes d c sm = .ok (c', sm ++ [(v, s)]) ∧ CacheOK dom nodes x₀ c' ∧
      Good dom nodes x₀ (sm ++ [(v, s)]) := by
  obtain ⟨v, hv, hnew, c', hc', dens, h1, h2, h3, h4⟩ :=
    drawStep_spec hnd hN hx₀ hc hg hlt d.pick
  obtain ⟨s, hs⟩ := scan_total dens d.r (by rw [h3]; exact hr.2) hr.1
  refine ⟨c', v, s, ?_, hc', ?_⟩
  · have := h4 d.r
    rw [hs] at this
    exact this
  · obtain ⟨l₁, p, l₂, heq, h5, h6⟩ := (scan_iff dens (dens_nonneg hN hx₀ h2) d.r hr.1 s).1 hs
    have hmem : (s, p) ∈ dens := by rw [heq]; simp
    have hp : 0 < p := by linarith
    apply hg.snoc hv hnew
    · exact h1.mem_iff.1 (List.mem_map_of_mem (f := Prod.fst) hmem)
    · have := h2 (s, p) hmem
      dsimp only at this
      rw [this] at hp
      by_contra hcon
      have h0 := le_antisymm (not_lt.1 hcon) (massOf_nonneg' hN hx₀ _)
      rw [h0, zero_div] at hp
      exact lt_irrefl _ hp

/-- Drawing one sample succeeds; the sample extends the evidence and is complete and possible. -/
theorem drawLoop_ok (hnd : nd.Legal) (hN : IsNetwork dom nodes)
    (hx₀ : ∀ v ∈ nodes.map Node.var, x₀ v ∈ dom v) (fuel : ℕ) (rand : ℕ → Draw K)
    (hr : ∀ i, 0 < (rand i).r ∧ (rand i).r ≤ 1) {c : Cache V S K} (hc : CacheOK dom nodes x₀ c)
    {sm : List (V × S)} (hg : Good dom nodes x₀ sm) (hfuel : nodes.length ≤ sm.length + fuel) :
    ∃ c' ext, drawLoop nd dom nodes fuel rand c sm = .ok (c', sm ++ ext) ∧
      CacheOK dom nodes x₀ c' ∧ Good dom nodes x₀ (sm ++ ext) ∧
      (sm ++ ext).length = nodes.length := by
  induction fuel generalizing rand c sm with
  | zero =>
    have hle := hg.length_le hN
    refine ⟨c, [], ?_, hc, by simpa using hg, by simp; omega⟩
    simp only [drawLoop, List.append_nil]
    rw [if_neg (by omega)]
  | succ fuel ih =>
    have hle := hg.length_le hN
    by_cases hlt : sm.length < nodes.length
    · obtain ⟨c', v, s, h1, h2, h3⟩ := drawStep_ok hnd hN hx₀ hc hg hlt (rand 0) (hr 0)
      obtain ⟨c'', ext, k1, k2, k3, k4⟩ := ih (fun i => rand (i + 1)) (fun i => hr (i + 1)) h2 h3
        (by simp; omega)
      refine ⟨c'', (v, s) :: ext, ?_, k2, by simpa using k3, by simpa using k4⟩
      simp only [drawLoop, if_pos hlt, h1, k1]
      simp
    · refine ⟨c, [], ?_, hc, by simpa using hg, by simp; omega⟩
      simp only [drawLoop, List.append_nil]
      rw [if_neg hlt]

/-- **C28.** For every random outcome in `(0, 1]` and evidence of positive probability,
`draw_samples` returns `n` samples; each starts with the evidence, gives every variable exactly
one of its states, and has positive probability. -/
theorem draw_samples_correct (hnd : nd.Legal) (hN : IsNetwork dom nodes)
    (hx₀ : ∀ v ∈ nodes.map Node.var, x₀ v ∈ dom v) {ev : List (V × S)}
    (hk : (ev.map Prod.fst).Nodup) (hev : GoodEvidence dom nodes ev)
    (hpos : 0 < massOf dom nodes x₀ (Agrees ev)) (n : ℕ) (rand : ℕ → ℕ → Draw K)
    (hr : ∀ k i, 0 < (rand k i).r ∧ (rand k i).r ≤ 1) :
    ∃ ss, drawSamples nd dom nodes ev n rand = .ok ss ∧ ss.length = n ∧
      ∀ s ∈ ss, ev <+: s ∧ (s.map Prod.fst).Perm (nodes.map Node.var) ∧
        (∀ p ∈ s, p.2 ∈ dom p.1) ∧ 0 < massOf dom nodes x₀ (Agrees s) := by
  unfold drawSamples
  have hg : Good dom nodes x₀ ev := ⟨hk, hev, hpos⟩
  have hc₀ : CacheOK dom nodes x₀ [] := by intro q hq; simp at hq
  revert hc₀
  generalize ([] : Cache V S K) = c
  intro hc
  induction n generalizing rand c with
  | zero => exact ⟨[], rfl, rfl, by simp⟩
  | succ n ih =>
    obtain ⟨c', ext, h1, h2, h3, h4⟩ := drawLoop_ok hnd hN hx₀ nodes.length (rand 0) (hr 0) hc hg
      (by omega)
    obtain ⟨ss, k1, k2, k3⟩ := ih (fun k => rand (k + 1)) (fun k => hr (k + 1)) c' h2
    refine ⟨(ev ++ ext) :: ss, ?_, by simp [k2], ?_⟩
    · simp only [drawMany, drawOne, h1, k1]
    · intro s hs
      rcases List.mem_cons.1 hs with rfl | hs
      · refine ⟨List.prefix_append _ _, ?_, fun p hp => (h3.states p hp).2, h3.pos⟩
        have hsub : ((ev ++ ext).map Prod.fst).Subperm (nodes.map Node.var) := by
          apply List.subperm_of_subset h3.keys
          intro v hv
          obtain ⟨p, hp, rfl⟩ := List.mem_map.1 hv
          exact (h3.states p hp).1
        exact hsub.perm_of_length_le (by simp at h4 ⊢; omega)
      · exact k3 s hs

/-- The exact law of one sample.  For the picks of variables fixed, and for every complete
assignment `σ` extending the sample so far, the random numbers leading to `σ` are exactly a box,
and the volume of the box is the conditional probability of `σ`. -/
theorem drawLoop_law (hnd : nd.Legal) (hN : IsNetwork dom nodes)
    (hx₀ : ∀ v ∈ nodes.map Node.var, x₀ v ∈ dom v) {σ : V → S}
    (hσ : ∀ v ∈ nodes.map Node.var, σ v ∈ dom v) (fuel : ℕ) (pick : ℕ → ℕ)
    {c : Cache V S K} (hc : CacheOK dom nodes x₀ c)
    {sm : List (V × S)} (hg : Good dom nodes x₀ sm) (hag : Agrees sm σ) (k : ℕ)
    (hlen : nodes.length = sm.length + k) (hfuel : k ≤ fuel) :
    ∃ lo hi : ℕ → K, (∀ i < k, 0 ≤ lo i ∧ lo i ≤ hi i ∧ hi i ≤ 1) ∧
      ∏ i ∈ Finset.range k, (hi i - lo i) = joint nodes σ / massOf dom nodes x₀ (Agrees sm) ∧
      ∀ r : ℕ → K, (∀ i, 0 < r i ∧ r i ≤ 1) →
        ∃ c' s, drawLoop nd dom nodes fuel (fun i => ⟨pick i, r i⟩) c sm = .ok (c', s) ∧
          (Agrees s σ ↔ ∀ i < k, lo i < r i ∧ r i ≤ hi i) := by
  have hjoint := massOf_single hN.wf hN.states_nodup hσ x₀
  induction k generalizing fuel pick c sm with
  | zero =>
    refine ⟨fun _ => 0, fun _ => 0, by simp, ?_, ?_⟩
    · have hsub : (nodes.map Node.var) ⊆ sm.map Prod.fst := by
        have hsub : (sm.map Prod.fst).Subperm (nodes.map Node.var) := by
          apply List.subperm_of_subset hg.keys
          intro v hv
          obtain ⟨p, hp, rfl⟩ := List.mem_map.1 hv
          exact (hg.states p hp).1
        exact (hsub.perm_of_length_le (by simp; omega)).symm.subset
      have heq : massOf dom nodes x₀ (Agrees sm) = joint nodes σ := by
        rw [← hjoint]
        apply massOf_congr
        intro x
        constructor
        · intro hx v hv
          obtain ⟨p, hp, rfl⟩ := List.mem_map.1 (hsub hv)
          rw [hx p hp, hag p hp]
        · intro hx p hp
          rw [hx p.1 (hg.states p hp).1, hag p hp]
      rw [heq, Finset.prod_range_zero, div_self]
      rw [← heq]; exact hg.pos.ne'
    · intro r hr
      have hnl : ¬ sm.length < nodes.length := by omega
      refine ⟨c, sm, ?_, by simp [hag]⟩
      cases fuel <;> simp only [drawLoop, if_neg hnl]
  | succ k ih =>
    obtain ⟨fuel, rfl⟩ : ∃ f, fuel = f + 1 := ⟨fuel - 1, by omega⟩
    have hlt : sm.length < nodes.length := by omega
    obtain ⟨v, hv, hnew, c', hc', dens, h1, h2, h3, h4⟩ :=
      drawStep_spec hnd hN hx₀ hc hg hlt (pick 0)
    have hnn := dens_nonneg hN hx₀ h2
    -- the slice of `σ v`
    have hmem : σ v ∈ dens.map Prod.fst := h1.mem_iff.2 (hσ v hv)
    obtain ⟨⟨s, p⟩, hq, hs⟩ := List.mem_map.1 hmem
    dsimp only at hs
    subst hs
    obtain ⟨l₁, l₂, hdec⟩ := List.append_of_mem hq
    have hnd' : (dens.map Prod.fst).Nodup := h1.nodup_iff.2 (by
      obtain ⟨n, hn, rfl⟩ := List.mem_map.1 hv
      exact hN.states_nodup n hn)
    have huniq : ∀ m₁ p' m₂, dens = m₁ ++ (σ v, p') :: m₂ → m₁ = l₁ ∧ p' = p := by
      intro m₁ p' m₂ h
      have hnd'' := hnd'
      rw [hdec] at hnd'' h
      clear hdec hq hmem h1 h2 h3 h4 hnn hnd'
      induction l₁ generalizing m₁ with
      | nil =>
        cases m₁ with
        | nil => simp at h; exact ⟨rfl, h.1.symm⟩
        | cons a m₁ =>
          simp only [List.nil_append, List.cons_append, List.cons.injEq] at h
          obtain ⟨rfl, rfl⟩ := h
          simp at hnd''
      | cons a l₁ ihl =>
        cases m₁ with
        | nil =>
          simp only [List.nil_append, List.cons_append, List.cons.injEq] at h
          obtain ⟨rfl, rfl⟩ := h
          simp at hnd''
        | cons b m₁ =>
          simp only [List.cons_append, List.cons.injEq] at h
          obtain ⟨rfl, h⟩ := h
          have := ihl m₁ h (by
            simp only [List.cons_append, List.map_cons, List.nodup_cons] at hnd''
            exact hnd''.2)
          exact ⟨by rw [this.1], this.2⟩
    have hchoose : ∀ r, 0 < r → (scan r (cumulative dens) = .ok (σ v) ↔
        (l₁.map Prod.snd).sum < r ∧ r ≤ (l₁.map Prod.snd).sum + p) := by
      intro r hr
      rw [scan_iff dens hnn r hr]
      constructor
      · rintro ⟨m₁, p', m₂, h, h5, h6⟩
        obtain ⟨rfl, rfl⟩ := huniq m₁ p' m₂ h
        exact ⟨h5, h6⟩
      · rintro ⟨h5, h6⟩
        exact ⟨l₁, p, l₂, hdec, h5, h6⟩
    have hpval : p = massOf dom nodes x₀ (fun x => Agrees sm x ∧ x v = σ v) /
        massOf dom nodes x₀ (Agrees sm) := h2 _ hq
    have hpnn : 0 ≤ p := hnn _ hq
    have hlo : 0 ≤ (l₁.map Prod.snd).sum := by
      apply List.sum_nonneg
      intro x hx
      obtain ⟨q, hq', rfl⟩ := List.mem_map.1 hx
      exact hnn q (by rw [hdec]; exact List.mem_append_left _ hq')
    have hhi : (l₁.map Prod.snd).sum + p ≤ 1 := by
      rw [← h3, hdec]
      simp only [List.map_append, List.map_cons, List.sum_append, List.sum_cons]
      have : 0 ≤ (l₂.map Prod.snd).sum := by
        apply List.sum_nonneg
        intro x hx
        obtain ⟨q, hq', rfl⟩ := List.mem_map.1 hx
        exact hnn q (by rw [hdec]; exact List.mem_append_right _ (List.mem_cons_of_mem _ hq'))
      linarith
    -- a wrong state makes the sample disagree with `σ` for good
    have hwrong : ∀ r : ℕ → K, (∀ i, 0 < r i ∧ r i ≤ 1) →
        ¬ ((l₁.map Prod.snd).sum < r 0 ∧ r 0 ≤ (l₁.map Prod.snd).sum + p) →
        ∃ c' s, drawLoop nd dom nodes (fuel + 1) (fun i => ⟨pick i, r i⟩) c sm = .ok (c', s) ∧
          ¬ Agrees s σ := by
      intro r hr hout
      obtain ⟨t, ht⟩ := scan_total dens (r 0) (by rw [h3]; exact (hr 0).2) (hr 0).1
      have htv : t ≠ σ v := by
        rintro rfl
        exact hout ((hchoose _ (hr 0).1).1 ht)
      have hst : drawStep nd dom nodes ⟨pick 0, r 0⟩ c sm = .ok (c', sm ++ [(v, t)]) := by
        rw [h4, ht]
      obtain ⟨c₁, v₁, s₁, hk1, hk2, hk3⟩ := drawStep_ok hnd hN hx₀ hc hg hlt ⟨pick 0, r 0⟩ (hr 0)
      rw [hst] at hk1
      have hk1' := hk1
      simp only [Except.ok.injEq, Prod.mk.injEq, List.append_cancel_left_eq, List.cons.injEq,
        and_true] at hk1'
      obtain ⟨rfl, rfl, rfl⟩ := hk1'
      obtain ⟨c₂, ext, k1, _, _, _⟩ := drawLoop_ok hnd hN hx₀ fuel
        (fun i => ⟨pick (i + 1), r (i + 1)⟩) (fun i => hr (i + 1)) hk2 hk3 (by simp; omega)
      refine ⟨c₂, sm ++ [(v, t)] ++ ext, ?_, ?_⟩
      · simp only [drawLoop, if_pos hlt, hst, k1]
      · intro h
        exact htv (h (v, t) (by simp)).symm
    by_cases hp0 : p = 0
    · -- impossible continuation
      refine ⟨fun _ => (l₁.map Prod.snd).sum, fun _ => (l₁.map Prod.snd).sum, ?_, ?_, ?_⟩
      · intro i _
        exact ⟨hlo, le_refl _, by rw [hp0, add_zero] at hhi; exact hhi⟩
      · rw [Finset.prod_eq_zero (i := 0) (by simp) (by simp)]
        have h0 : massOf dom nodes x₀ (fun x => Agrees sm x ∧ x v = σ v) = 0 := by
          rw [hp0] at hpval
          rcases div_eq_zero_iff.1 hpval.symm with h | h
          · exact h
          · exact absurd h hg.pos.ne'
        have hj0 : joint nodes σ = 0 := by
          apply le_antisymm
          · rw [← hjoint, ← h0]
            apply massOf_mono' hN hx₀
            intro x hx
            refine ⟨?_, hx v hv⟩
            intro q hq'
            rw [hx q.1 (hg.states q hq').1, hag q hq']
          · rw [← hjoint]; exact massOf_nonneg' hN hx₀ _
        rw [hj0, zero_div]
      · intro r hr
        obtain ⟨c₂, s, k1, k2⟩ := hwrong r hr (by
          rw [hp0, add_zero]
          rintro ⟨ha, hb⟩
          exact absurd ha (not_lt.2 hb))
        refine ⟨c₂, s, k1, ?_⟩
        constructor
        · intro h; exact absurd h k2
        · intro h
          obtain ⟨ha, hb⟩ := h 0 (by omega)
          exact absurd ha (not_lt.2 hb)
    · have hmpos : 0 < massOf dom nodes x₀ (fun x => Agrees sm x ∧ x v = σ v) := by
        rcases (massOf_nonneg' hN hx₀ (fun x => Agrees sm x ∧ x v = σ v)).eq_or_lt with h | h
        · exact absurd (by rw [hpval, ← h, zero_div]) hp0
        · exact h
      have hg' : Good dom nodes x₀ (sm ++ [(v, σ v)]) := hg.snoc hv hnew (hσ v hv) hmpos
      have hag' : Agrees (sm ++ [(v, σ v)]) σ := (agrees_append σ).2 ⟨hag, rfl⟩
      obtain ⟨lo, hi, b1, b2, b3⟩ := ih fuel (fun i => pick (i + 1)) hc' hg' hag'
        (by simp; omega) (by omega)
      refine ⟨fun i => i.casesOn ((l₁.map Prod.snd).sum) lo,
        fun i => i.casesOn ((l₁.map Prod.snd).sum + p) hi, ?_, ?_, ?_⟩
      · intro i hi'
        cases i with
        | zero => exact ⟨hlo, by simpa using hpnn, hhi⟩
        | succ i => exact b1 i (by omega)
      · rw [Finset.prod_range_succ']
        simp only
        rw [b2, massOf_congr agrees_append]
        change _ * ((l₁.map Prod.snd).sum + p - (l₁.map Prod.snd).sum) = _
        rw [add_sub_cancel_left, hpval]
        have := hg.pos.ne'
        have := hmpos.ne'
        field_simp
      · intro r hr
        by_cases hin : (l₁.map Prod.snd).sum < r 0 ∧ r 0 ≤ (l₁.map Prod.snd).sum + p
        · have hst : drawStep nd dom nodes ⟨pick 0, r 0⟩ c sm = .ok (c', sm ++ [(v, σ v)]) := by
            rw [h4, (hchoose _ (hr 0).1).2 hin]
          obtain ⟨c₂, s, k1, k2⟩ := b3 (fun i => r (i + 1)) fun i => hr (i + 1)
          refine ⟨c₂, s, ?_, ?_⟩
          · simp only [drawLoop, if_pos hlt, hst, k1]
          · rw [k2]
            constructor
            · intro h i hi'
              cases i with
              | zero => exact hin
              | succ i => exact h i (by omega)
            · intro h i hi'
              exact h (i + 1) (by omega)
        · obtain ⟨c₂, s, k1, k2⟩ := hwrong r hr hin
          refine ⟨c₂, s, k1, ?_⟩
          constructor
          · intro h; exact absurd h k2
          · intro h; exact absurd (h 0 (by omega)) hin

/-- Caches that can arise: what earlier samples with the same evidence left behind. -/
inductive CacheReach (nd : Nondet V) (dom : V → List S) (nodes : List (Node V S K))
    (ev : List (V × S)) : Cache V S K → Prop
  | empty : CacheReach nd dom nodes ev []
  | next {c c' : Cache V S K} {rand : ℕ → Draw K} {s : List (V × S)}
      (h : CacheReach nd dom nodes ev c) (hr : ∀ i, 0 < (rand i).r ∧ (rand i).r ≤ 1)
      (hd : drawOne nd dom nodes rand c ev = .ok (c', s)) : CacheReach nd dom nodes ev c'

/-- **C28**, the law of a sample.  Fix how the variables are picked and what earlier samples left in
the cache.  For every complete assignment `σ` agreeing with the evidence there is a box of random
numbers, one interval `(lo, hi]` in `(0, 1]` for each variable not in the evidence, such that the
sample drawn is `σ` exactly when the random numbers lie in the box, and the volume of the box is
the conditional probability of `σ` given the evidence. -/
theorem draw_sample_law (hnd : nd.Legal) (hN : IsNetwork dom nodes)
    (hx₀ : ∀ v ∈ nodes.map Node.var, x₀ v ∈ dom v) {ev : List (V × S)}
    (hk : (ev.map Prod.fst).Nodup) (hev : GoodEvidence dom nodes ev)
    (hpos : 0 < massOf dom nodes x₀ (Agrees ev)) {σ : V → S}
    (hσ : ∀ v ∈ nodes.map Node.var, σ v ∈ dom v) (hag : Agrees ev σ) (pick : ℕ → ℕ)
    {c : Cache V S K} (hc : CacheReach nd dom nodes ev c) :
    ∃ lo hi : ℕ → K,
      (∀ i < nodes.length - ev.length, 0 ≤ lo i ∧ lo i ≤ hi i ∧ hi i ≤ 1) ∧
      ∏ i ∈ Finset.range (nodes.length - ev.length), (hi i - lo i) =
        joint nodes σ / massOf dom nodes x₀ (Agrees ev) ∧
      ∀ r : ℕ → K, (∀ i, 0 < r i ∧ r i ≤ 1) →
        ∃ c' s, drawOne nd dom nodes (fun i => ⟨pick i, r i⟩) c ev = .ok (c', s) ∧
          (Agrees s σ ↔ ∀ i < nodes.length - ev.length, lo i < r i ∧ r i ≤ hi i) := by
  have hg : Good dom nodes x₀ ev := ⟨hk, hev, hpos⟩
  have hc' : CacheOK dom nodes x₀ c := by
    induction hc with
    | empty => intro q hq; simp at hq
    | next h hr hd ih =>
      obtain ⟨c', ext, h1, h2, _, _⟩ := drawLoop_ok hnd hN hx₀ nodes.length _ hr ih hg (by omega)
      unfold drawOne at hd
      rw [h1] at hd
      simp only [Except.ok.injEq, Prod.mk.injEq] at hd
      rw [← hd.1]; exact h2
  have hle := hg.length_le hN
  exact drawLoop_law hnd hN hx₀ hσ nodes.length pick hc' hg hag (nodes.length - ev.length)
    (by omega) (by omega)

/-- **C28**, evidence of probability zero: as soon as a variable has to be drawn, the loop runs off
the end of the cumulative density and raises `IndexError`. -/
theorem draw_impossible_evidence (hnd : nd.Legal) (hN : IsNetwork dom nodes)
    (hx₀ : ∀ v ∈ nodes.map Node.var, x₀ v ∈ dom v) {ev : List (V × S)}
    (hk : (ev.map Prod.fst).Nodup) (hev : GoodEvidence dom nodes ev)
    (hzero : massOf dom nodes x₀ (Agrees ev) = 0) (hlt : ev.length < nodes.length) (n : ℕ)
    (rand : ℕ → ℕ → Draw K) (hr : 0 < (rand 0 0).r) :
    drawSamples nd dom nodes ev (n + 1) rand = .error .indexError := by
  obtain ⟨res, h1, h2⟩ := query_impossible hnd hN hx₀ hk hev hzero
  have hstep : drawStep nd dom nodes (rand 0 0) [] ev = .error .indexError := by
    unfold drawStep
    dsimp only
    split
    · rfl
    · rename_i nde hnde
      have hcq : cachedQuery nd dom nodes [] ev = .ok ([(sampleKey ev, res)], res) := by
        simp only [cachedQuery, List.lookup_nil, h1]
      rw [hcq]
      dsimp only
      have hzeroes : ∀ dens : List (S × K), (∀ q ∈ dens, q.2 = 0) → ∀ q ∈ cumulative dens,
          q.2 = 0 := by
        intro dens
        induction dens with
        | nil => intro _ q hq; simp [cumulative] at hq
        | cons a dens ih =>
          intro hd q hq
          rw [show a = (a.1, a.2) from rfl, cumulative_cons] at hq
          simp only [List.mem_cons, List.mem_map] at hq
          rcases hq with rfl | ⟨b, hb, rfl⟩
          · exact hd a List.mem_cons_self
          · have h1 := ih (fun q hq => hd q (List.mem_cons_of_mem _ hq)) b hb
            have h2 := hd a List.mem_cons_self
            simp [h1, h2]
      have hscan : ∀ l : List (S × K), (∀ q ∈ l, q.2 = 0) →
          scan (rand 0 0).r l = .error .indexError := by
        intro l
        induction l with
        | nil => intro _; rfl
        | cons a l ih =>
          intro hd
          have := hd a List.mem_cons_self
          simp only [scan, this, if_pos hr]
          exact ih fun q hq => hd q (List.mem_cons_of_mem _ hq)
      rw [hscan]
      apply hzeroes
      intro q hq
      obtain ⟨m, hm, rfl⟩ := List.mem_map.1 hq
      exact h2.2 _ _ _ (List.mem_filter.1 hm).1
  unfold drawSamples
  simp only [drawMany, drawOne]
  obtain ⟨k, hk'⟩ : ∃ k, nodes.length = k + 1 := ⟨nodes.length - 1, by omega⟩
  rw [hk']
  simp only [drawLoop, if_pos hlt, hstep]

end

/-! ### Examples -/

/-- `draw_samples_correct` and `draw_sample_law` apply to the three-node example with evidence. -/
example (rand : ℕ → ℕ → Draw ℚ) (hr : ∀ k i, 0 < (rand k i).r ∧ (rand k i).r ≤ 1) :
    ∃ ss, drawSamples exNd exDom exNodes [(2, true)] 5 rand = .ok ss ∧ ss.length = 5 := by
  obtain ⟨ss, h1, h2, _⟩ := draw_samples_correct exNd_legal exNodes_network exDom_valid
    (ev := [(2, true)]) (by simp) (by unfold GoodEvidence; decide) ex_evidence_pos 5 rand hr
  exact ⟨ss, h1, h2⟩

/-- One variable whose first state has probability zero. -/
def exZero : List (Node ℕ Bool ℚ) :=
  [{ args := [0], fn := fun | [true] => 0 | _ => 1, var := 0 }]

/-- **C28, disagreement.** `random()` can return `0`, and then the first state is drawn even if its
probability is zero. -/
theorem draw_zero_impossible :
    drawSamples exNd exDom exZero [] 1 (fun _ _ => ⟨0, 0⟩) = .ok [[(0, true)]] ∧
      massOf exDom exZero (fun _ => true) (Agrees [(0, true)]) = 0 := by
  constructor
  · decide +kernel
  · decide +kernel

end Verif.BBN
