import Verif.BBN.SampleProps

/-!
# C128: all samples of a call of `draw_samples`
-/

namespace Verif.BBN
open Function

section
variable {V S K : Type} [LinearOrder V] [DecidableEq S] [Field K] [LinearOrder K]
  [IsStrictOrderedRing K]
variable {nd : Nondet V} {dom : V → List S} {nodes : List (Node V S K)} {x₀ : V → S}

omit [IsStrictOrderedRing K] in
theorem drawStep_shape {d : Draw K} {c c' : Cache V S K} {sm s : List (V × S)} (h : drawStep nd dom nodes d c sm = .ok (c', s)) :
    ∃ v t, s = sm ++ [(v, t)] ∧ ∀ r : K, ∀ c₁ s₁, drawStep nd dom nodes ⟨d.pick, r⟩ c sm = .ok (c₁, s₁) → c₁ = c' ∧ ∃ t₁, s₁ = sm ++ [(v, t₁)] := by
  obtain ⟨pick, r₀⟩ := d
  unfold drawStep at h
  dsimp only at h
  split at h
  · cases h
  · rename_i n hn
    split at h
    · cases h
    · rename_i c₂ res hq
      split at h
      · cases h
      · rename_i t ht
        cases h
        refine ⟨n.var, t, rfl, fun r c₁ s₁ h₁ => ?_⟩
        unfold drawStep at h₁
        dsimp only at h₁
        rw [hn] at h₁
        simp only [hq] at h₁
        split at h₁
        · cases h₁
        · rename_i t₁ _
          cases h₁
          exact ⟨rfl, t₁, rfl⟩

omit [IsStrictOrderedRing K] in
theorem drawLoop_prefix {fuel : ℕ} {rand : ℕ → Draw K} {c c' : Cache V S K} {sm s : List (V × S)}
    (h : drawLoop nd dom nodes fuel rand c sm = .ok (c', s)) : sm <+: s := by
  induction fuel generalizing rand c sm with
  | zero =>
    simp only [drawLoop] at h
    split at h
    · cases h
    · cases h; exact List.prefix_refl _
  | succ fuel ih =>
    simp only [drawLoop] at h
    split at h
    · split at h
      · cases h
      · rename_i c₁ s₁ h₁
        obtain ⟨v, t, rfl, -⟩ := drawStep_shape h₁
        exact (List.prefix_append _ _).trans (ih h)
    · cases h; exact List.prefix_refl _

omit [IsStrictOrderedRing K] in
/-- What a sample leaves in the cache depends on the sample but not on the random numbers that led to it. -/
theorem drawLoop_det {σ : V → S} {fuel : ℕ} {pick : ℕ → ℕ} {r r' : ℕ → K} {c c₁ c₂ : Cache V S K} {sm s₁ s₂ : List (V × S)}
    (h₁ : drawLoop nd dom nodes fuel (fun i => ⟨pick i, r i⟩) c sm = .ok (c₁, s₁))
    (h₂ : drawLoop nd dom nodes fuel (fun i => ⟨pick i, r' i⟩) c sm = .ok (c₂, s₂)) (a₁ : Agrees s₁ σ) (a₂ : Agrees s₂ σ) : c₁ = c₂ ∧ s₁ = s₂ := by
  induction fuel generalizing pick r r' c sm with
  | zero =>
    simp only [drawLoop] at h₁ h₂
    split at h₁
    · cases h₁
    · rename_i hn
      rw [if_neg hn] at h₂
      cases h₁; cases h₂; exact ⟨rfl, rfl⟩
  | succ fuel ih =>
    simp only [drawLoop] at h₁ h₂
    split at h₁
    · rename_i hlt
      rw [if_pos hlt] at h₂
      split at h₁
      · cases h₁
      · rename_i c₃ s₃ h₃
        split at h₂
        · cases h₂
        · rename_i c₄ s₄ h₄
          obtain ⟨v, t, rfl, hd⟩ := drawStep_shape h₃
          obtain ⟨rfl, t', rfl⟩ := hd _ _ _ h₄
          have e₁ : t = σ v := ((a₁ (v, t) ((drawLoop_prefix h₁).subset (by simp)))).symm
          have e₂ : t' = σ v := ((a₂ (v, t') ((drawLoop_prefix h₂).subset (by simp)))).symm
          rw [e₁] at h₁
          rw [e₂] at h₂
          exact ih (pick := fun i => pick (i + 1)) (r := fun i => r (i + 1)) (r' := fun i => r' (i + 1)) h₁ h₂
    · rename_i hn
      rw [if_neg hn] at h₂
      cases h₁; cases h₂; exact ⟨rfl, rfl⟩

omit [IsStrictOrderedRing K] in
/-- A sample depends only on as many random decisions as there are variables to draw. -/
theorem drawLoop_congr {fuel : ℕ} {rand rand' : ℕ → Draw K} {c : Cache V S K} {sm : List (V × S)}
    (h : ∀ i < nodes.length - sm.length, rand i = rand' i) :
    drawLoop nd dom nodes fuel rand c sm = drawLoop nd dom nodes fuel rand' c sm := by
  induction fuel generalizing rand rand' c sm with
  | zero => rfl
  | succ fuel ih =>
    simp only [drawLoop]
    by_cases hlt : sm.length < nodes.length
    · rw [if_pos hlt, if_pos hlt, h 0 (by omega)]
      cases hs : drawStep nd dom nodes (rand' 0) c sm with
      | error e => rfl
      | ok q =>
        obtain ⟨c', s⟩ := q
        obtain ⟨v, t, rfl, -⟩ := drawStep_shape hs
        exact ih fun i hi => h (i + 1) (by simp at hi; omega)
    · rw [if_neg hlt, if_neg hlt]

omit [IsStrictOrderedRing K] in
theorem drawMany_congr {n : ℕ} {ev : List (V × S)} {rand rand' : ℕ → ℕ → Draw K} {c : Cache V S K}
    (h : ∀ k < n, ∀ i < nodes.length - ev.length, rand k i = rand' k i) :
    drawMany nd dom nodes ev n rand c = drawMany nd dom nodes ev n rand' c := by
  induction n generalizing rand rand' c with
  | zero => rfl
  | succ n ih =>
    simp only [drawMany, drawOne]
    rw [drawLoop_congr (rand' := rand' 0) (h 0 (by omega))]
    cases drawLoop nd dom nodes nodes.length (rand' 0) c ev with
    | error e => rfl
    | ok q =>
      dsimp only
      rw [ih (rand' := fun k => rand' (k + 1)) fun k hk => h (k + 1) (by omega)]

theorem drawMany_ok (hnd : nd.Legal) (hN : IsNetwork dom nodes) (hx₀ : ∀ v ∈ nodes.map Node.var, x₀ v ∈ dom v) {ev : List (V × S)}
    (hg : Good dom nodes x₀ ev) (n : ℕ) (rand : ℕ → ℕ → Draw K) (hr : ∀ k i, 0 < (rand k i).r ∧ (rand k i).r ≤ 1) {c : Cache V S K}
    (hc : CacheOK dom nodes x₀ c) : ∃ ss, drawMany nd dom nodes ev n rand c = .ok ss ∧ ss.length = n := by
  induction n generalizing rand c with
  | zero => exact ⟨[], rfl, rfl⟩
  | succ n ih =>
    obtain ⟨c', ext, h1, h2, -, -⟩ := drawLoop_ok hnd hN hx₀ nodes.length (rand 0) (hr 0) hc hg (by omega)
    obtain ⟨ss, k1, k2⟩ := ih (fun k => rand (k + 1)) (fun k => hr (k + 1)) h2
    exact ⟨(ev ++ ext) :: ss, by simp only [drawMany, drawOne, h1, k1], by simp [k2]⟩

theorem drawMany_law (hnd : nd.Legal) (hN : IsNetwork dom nodes) (hx₀ : ∀ v ∈ nodes.map Node.var, x₀ v ∈ dom v) {ev : List (V × S)}
    (hg : Good dom nodes x₀ ev) (n : ℕ) (σ : ℕ → V → S) (hσ : ∀ k, (∀ v ∈ nodes.map Node.var, σ k v ∈ dom v) ∧ Agrees ev (σ k))
    (pick : ℕ → ℕ → ℕ) {c : Cache V S K} (hc : CacheOK dom nodes x₀ c) :
    ∃ lo hi : ℕ → ℕ → K, (∀ k < n, ∀ i < nodes.length - ev.length, 0 ≤ lo k i ∧ lo k i ≤ hi k i ∧ hi k i ≤ 1) ∧
      (∀ k < n, ∏ i ∈ Finset.range (nodes.length - ev.length), (hi k i - lo k i) = joint nodes (σ k) / massOf dom nodes x₀ (Agrees ev)) ∧
      ∀ r : ℕ → ℕ → K, (∀ k i, 0 < r k i ∧ r k i ≤ 1) →
        ∃ ss, drawMany nd dom nodes ev n (fun k i => ⟨pick k i, r k i⟩) c = .ok ss ∧ ss.length = n ∧
          ((∀ k (h : k < ss.length), Agrees ss[k] (σ k)) ↔ ∀ k < n, ∀ i < nodes.length - ev.length, lo k i < r k i ∧ r k i ≤ hi k i) := by
  induction n generalizing σ pick c with
  | zero => exact ⟨fun _ _ => 0, fun _ _ => 0, by simp, by simp, fun r hr => ⟨[], rfl, rfl, by simp⟩⟩
  | succ n ih =>
    have hle := hg.length_le hN
    obtain ⟨lo₀, hi₀, b1, b2, b3⟩ := drawLoop_law hnd hN hx₀ (hσ 0).1 nodes.length (pick 0) hc hg (hσ 0).2 (nodes.length - ev.length)
      (by omega) (by omega)
    -- the cache after a sample that agrees with the first assignment
    obtain ⟨c₁, hc₁, hcache⟩ : ∃ c₁, CacheOK dom nodes x₀ c₁ ∧ ∀ r : ℕ → K, (∀ i, 0 < r i ∧ r i ≤ 1) → ∀ c' s,
        drawLoop nd dom nodes nodes.length (fun i => ⟨pick 0 i, r i⟩) c ev = .ok (c', s) → Agrees s (σ 0) → c' = c₁ := by
      by_cases hex : ∃ r : ℕ → K, (∀ i, 0 < r i ∧ r i ≤ 1) ∧ ∃ c' s,
          drawLoop nd dom nodes nodes.length (fun i => ⟨pick 0 i, r i⟩) c ev = .ok (c', s) ∧ Agrees s (σ 0)
      · obtain ⟨r, hr, c', s, h1, h2⟩ := hex
        obtain ⟨c'', ext, k1, k2, -, -⟩ := drawLoop_ok hnd hN hx₀ nodes.length (fun i => ⟨pick 0 i, r i⟩) hr hc hg (by omega)
        rw [h1] at k1
        cases k1
        exact ⟨c', k2, fun r' _ c'' s' h1' h2' => (drawLoop_det h1' h1 h2' h2).1⟩
      · exact ⟨c, hc, fun r hr c' s h1 h2 => absurd ⟨r, hr, c', s, h1, h2⟩ hex⟩
    obtain ⟨lo, hi, d1, d2, d3⟩ := ih (fun k => σ (k + 1)) (fun k => hσ (k + 1)) (fun k => pick (k + 1)) hc₁
    refine ⟨fun k => k.casesOn lo₀ lo, fun k => k.casesOn hi₀ hi, ?_, ?_, ?_⟩
    · intro k hk
      cases k with
      | zero => exact b1
      | succ k => exact d1 k (by omega)
    · intro k hk
      cases k with
      | zero => exact b2
      | succ k => exact d2 k (by omega)
    · intro r hr
      obtain ⟨c', s, h1, h2⟩ := b3 (r 0) (hr 0)
      by_cases hs : Agrees s (σ 0)
      · obtain rfl := hcache (r 0) (hr 0) c' s h1 hs
        obtain ⟨ss, e1, e2, e3⟩ := d3 (fun k => r (k + 1)) fun k => hr (k + 1)
        refine ⟨s :: ss, by simp only [drawMany, drawOne, h1, e1], by simp [e2], ?_⟩
        constructor
        · intro h k hk
          cases k with
          | zero => exact h2.1 hs
          | succ k => exact e3.1 (fun k hk => h (k + 1) (by simpa using hk)) k (by omega)
        · intro h k hk
          cases k with
          | zero => exact hs
          | succ k => exact e3.2 (fun k hk => h (k + 1) (by omega)) k (by simpa using hk)
      · obtain ⟨c'', ext, k1, k2, -, -⟩ := drawLoop_ok hnd hN hx₀ nodes.length (fun i => ⟨pick 0 i, r 0 i⟩) (hr 0) hc hg (by omega)
        rw [h1] at k1
        cases k1
        obtain ⟨ss, e1, e2⟩ := drawMany_ok hnd hN hx₀ hg n (fun k i => ⟨pick (k + 1) i, r (k + 1) i⟩) (fun k => hr (k + 1)) k2
        refine ⟨(ev ++ ext) :: ss, by simp only [drawMany, drawOne, h1, e1], by simp [e2], ?_⟩
        constructor
        · intro h
          exact absurd (h 0 (by simp)) hs
        · intro h
          exact absurd (h2.2 (h 0 (by omega))) hs

/-- **C128**, the law of all samples of a call.  Fix how the variables are picked.  For all complete assignments `σ 0, σ 1, …` agreeing with
the evidence there are boxes of random numbers, one for each sample, such that the samples are `σ 0, …, σ (n - 1)` exactly when the random
numbers of each sample lie in its box, and the volume of each box is the conditional probability of its assignment given the evidence. -/
theorem draw_samples_law (hnd : nd.Legal) (hN : IsNetwork dom nodes) (hx₀ : ∀ v ∈ nodes.map Node.var, x₀ v ∈ dom v) {ev : List (V × S)}
    (hk : (ev.map Prod.fst).Nodup) (hev : GoodEvidence dom nodes ev) (hpos : 0 < massOf dom nodes x₀ (Agrees ev)) (n : ℕ) (σ : ℕ → V → S)
    (hσ : ∀ k, (∀ v ∈ nodes.map Node.var, σ k v ∈ dom v) ∧ Agrees ev (σ k)) (pick : ℕ → ℕ → ℕ) :
    ∃ lo hi : ℕ → ℕ → K, (∀ k < n, ∀ i < nodes.length - ev.length, 0 ≤ lo k i ∧ lo k i ≤ hi k i ∧ hi k i ≤ 1) ∧
      (∀ k < n, ∏ i ∈ Finset.range (nodes.length - ev.length), (hi k i - lo k i) = joint nodes (σ k) / massOf dom nodes x₀ (Agrees ev)) ∧
      ∀ r : ℕ → ℕ → K, (∀ k i, 0 < r k i ∧ r k i ≤ 1) →
        ∃ ss, drawSamples nd dom nodes ev n (fun k i => ⟨pick k i, r k i⟩) = .ok ss ∧ ss.length = n ∧
          ((∀ k (h : k < ss.length), Agrees ss[k] (σ k)) ↔ ∀ k < n, ∀ i < nodes.length - ev.length, lo k i < r k i ∧ r k i ≤ hi k i) :=
  drawMany_law hnd hN hx₀ ⟨hk, hev, hpos⟩ n σ hσ pick fun q hq => by simp at hq

end

end Verif.BBN
