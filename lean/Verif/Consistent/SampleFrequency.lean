import Verif.Consistent.Enough
import Verif.Consistent.RoundTrip
import Mathlib.Probability.ProbabilityMassFunction.Integrals

/-!
# C143: the frequencies in a sample are close to the answers of a query
-/

namespace Verif.Consistent

open Verif.BBN Function MeasureTheory ProbabilityTheory

/-- Hoeffding's inequality for the number of times that a property holds in `n` draws from a finite distribution. -/
theorem draws_bound {m n : ℕ} {w : Fin m → ℝ} (h0 : ∀ j, 0 ≤ w j) (h1 : ∑ j, w j = 1) (A : Fin m → Prop) [DecidablePred A] {ε : ℝ} (hε : 0 ≤ ε) :
    ∑ τ : Fin n → Fin m with n * ε ≤ |∑ k, (if A (τ k) then (1 : ℝ) else 0) - n * ∑ j with A j, w j|, ∏ k, w (τ k) ≤ 2 * Real.exp (-2 * n * ε ^ 2) := by
  have hsum : ∑ j, ENNReal.ofReal (w j) = 1 := by
    rw [← ENNReal.ofReal_sum_of_nonneg fun j _ => h0 j, h1, ENNReal.ofReal_one]
  let q : PMF (Fin m) := PMF.ofFintype (fun j => ENNReal.ofReal (w j)) hsum
  let μ : Measure (Fin m) := q.toMeasure
  haveI : IsProbabilityMeasure μ := PMF.toMeasure.isProbabilityMeasure q
  let Q : Measure (Fin n → Fin m) := Measure.pi fun _ => μ
  have hμ : ∀ j, μ {j} = ENNReal.ofReal (w j) := fun j => by
    rw [PMF.toMeasure_apply_singleton _ _ (measurableSet_singleton _)]
    rfl
  have hQ : ∀ τ : Fin n → Fin m, Q.real {τ} = ∏ k, w (τ k) := by
    intro τ
    rw [measureReal_def, Measure.pi_singleton, ENNReal.toReal_prod]
    exact Finset.prod_congr rfl fun k _ => by rw [hμ, ENNReal.toReal_ofReal (h0 _)]
  let p : ℝ := ∑ j with A j, w j
  have hp : p = ∑ j, w j * (if A j then 1 else 0) := by
    change ∑ j with A j, w j = _
    rw [Finset.sum_filter]
    exact Finset.sum_congr rfl fun j _ => by split <;> simp
  let f : Fin m → ℝ := fun j => (if A j then 1 else 0) - p
  have hf : ∫ j, f j ∂μ = 0 := by
    have := PMF.integral_eq_sum q f
    rw [this]
    have e : ∀ j, (q j).toReal • f j = w j * (if A j then 1 else 0) - w j * p := by
      intro j
      have : (q j).toReal = w j := ENNReal.toReal_ofReal (h0 j)
      rw [this, smul_eq_mul, mul_sub]
    rw [Finset.sum_congr rfl fun j _ => e j, Finset.sum_sub_distrib, ← hp, ← Finset.sum_mul, h1, one_mul, sub_self]
  have hind : ∀ g : Fin m → ℝ, iIndepFun (fun (k : Fin n) (τ : Fin n → Fin m) => g (τ k)) Q := fun g =>
    iIndepFun_pi (μ := fun _ : Fin n => μ) (X := fun _ => g) fun _ => (measurable_of_finite g).aemeasurable
  have hmean : ∀ (g : Fin m → ℝ) (k : Fin n), ∫ τ, g (τ k) ∂Q = ∫ j, g j ∂μ := by
    intro g k
    have hpres := measurePreserving_eval (fun _ : Fin n => μ) k
    rw [← hpres.map_eq, integral_map hpres.measurable.aemeasurable (measurable_of_finite g).aestronglyMeasurable]
  have ht : 0 ≤ (n : ℝ) * ε := mul_nonneg (Nat.cast_nonneg n) hε
  have hexp : -2 * ((n : ℝ) * ε) ^ 2 / n = -2 * n * ε ^ 2 := by
    by_cases hn : (n : ℝ) = 0
    · rw [hn]; simp
    · field_simp
  have hup := hoeffding (P := Q) (n := n) (Y := fun k τ => f (τ k)) (fun k => (measurable_of_finite f).comp (measurable_pi_apply k)) (hind f) (a := -p)
    (fun k τ => by
      change -p ≤ (if A (τ k) then (1 : ℝ) else 0) - p ∧ (if A (τ k) then (1 : ℝ) else 0) - p ≤ -p + 1
      split <;> constructor <;> linarith) (fun k => by rw [hmean f k, hf]) ht
  have hdn := hoeffding (P := Q) (n := n) (Y := fun k τ => -f (τ k)) (fun k => ((measurable_of_finite f).comp (measurable_pi_apply k)).neg) (hind fun j => -f j) (a := p - 1)
    (fun k τ => by
      change p - 1 ≤ -((if A (τ k) then (1 : ℝ) else 0) - p) ∧ -((if A (τ k) then (1 : ℝ) else 0) - p) ≤ p - 1 + 1
      split <;> constructor <;> linarith) (fun k => by rw [hmean (fun j => -f j) k, integral_neg, hf, neg_zero]) ht
  rw [hexp] at hup hdn
  rw [Finset.sum_congr rfl fun τ _ => (hQ τ).symm, sum_measureReal_singleton]
  have hsub : ((Finset.univ.filter fun τ : Fin n → Fin m => n * ε ≤ |∑ k, (if A (τ k) then (1 : ℝ) else 0) - n * ∑ j with A j, w j| : Finset _) : Set (Fin n → Fin m)) ⊆
      {τ | n * ε ≤ ∑ k, f (τ k)} ∪ {τ | n * ε ≤ ∑ k, -f (τ k)} := by
    intro τ hτ
    have hτ := (Finset.mem_filter.1 (Finset.mem_coe.1 hτ)).2
    have e : ∑ k, f (τ k) = ∑ k, (if A (τ k) then (1 : ℝ) else 0) - n * p := by
      change ∑ k, ((if A (τ k) then (1 : ℝ) else 0) - p) = _
      rw [Finset.sum_sub_distrib, Finset.sum_const, Finset.card_univ, Fintype.card_fin, nsmul_eq_mul]
    rcases le_abs.1 hτ with h | h
    · left
      change n * ε ≤ ∑ k, f (τ k)
      rw [e]
      exact h
    · right
      change n * ε ≤ ∑ k, -f (τ k)
      rw [Finset.sum_neg_distrib, e]
      exact h
  calc _ ≤ Q.real ({τ | n * ε ≤ ∑ k, f (τ k)} ∪ {τ | n * ε ≤ ∑ k, -f (τ k)}) := measureReal_mono hsub
    _ ≤ _ := measureReal_union_le _ _
    _ ≤ _ := by linarith

variable {Ω : Type} [MeasurableSpace Ω] {P : Measure Ω} [IsProbabilityMeasure P] {pick : ℕ → ℕ → Ω → ℕ} {U : ℕ → ℕ → Ω → ℝ}
variable {V S : Type} [LinearOrder V] [DecidableEq S] {nd : Nondet V} {dom : V → List S} {nodes : List (Node V S ℝ)} {x₀ : V → S}

theorem list_sum_filter {α : Type} (l : List α) (A : α → Prop) [DecidablePred A] (f : α → ℝ) :
    ((l.filter fun x => A x).map f).sum = ∑ j : Fin l.length with A l[j], f l[j] := by
  rw [Finset.sum_filter]
  induction l with
  | nil => simp
  | cons a l ih =>
    have e := Fin.sum_univ_succ fun j : Fin (l.length + 1) => if A (a :: l)[j] then f (a :: l)[j] else 0
    refine Eq.trans ?_ e.symm
    by_cases h : A a
    · rw [List.filter_cons_of_pos (by simpa using h), List.map_cons, List.sum_cons, ih]
      simp [h]
    · rw [List.filter_cons_of_neg (by simpa using h), ih]
      simp [h]

/-- **C143**: let `res` be the answer to the query with the evidence `ev`.  The probability that not all frequencies of states in `n` samples are
within `ε` of the probabilities in `res` is at most `2 D exp (-2 n ε²)`, where `D` is the number of states of all variables. -/
theorem sample_frequencies (hnd : nd.Legal) (hN : IsNetwork dom nodes) (hx₀ : ∀ v ∈ nodes.map Node.var, x₀ v ∈ dom v) {ev : List (V × S)}
    (hk : (ev.map Prod.fst).Nodup) (hev : GoodEvidence dom nodes ev) (hpos : 0 < massOf dom nodes x₀ (Agrees ev)) (h : RandomSource P pick U) {n : ℕ}
    (hn : 0 < n) {ε : ℝ} (hε : 0 ≤ ε) {res : List ((V × S) × ℝ)} (hres : query nd dom nodes ev = .ok res) :
    P {ω | ¬ ∃ ss, drawSamples nd dom nodes ev n (fun k i => ⟨pick k i ω, U k i ω⟩) = .ok ss ∧ ss.length = n ∧
        ∀ v s p, ((v, s), p) ∈ res → |(ss.countP fun sample => (v, s) ∈ sample) / (n : ℝ) - p| < ε} ≤
      ENNReal.ofReal (2 * (allStates dom nodes).length * Real.exp (-2 * n * ε ^ 2)) := by
  classical
  let W : List (V → S) := (worlds dom (nodes.map Node.var) x₀).filter fun x => Agrees ev x
  let M : ℝ := massOf dom nodes x₀ (Agrees ev)
  let w : Fin W.length → ℝ := fun j => joint nodes W[j] / M
  have hW : ∀ j : Fin W.length, (∀ v ∈ nodes.map Node.var, W[j] v ∈ dom v) ∧ Agrees ev W[j] := by
    intro j
    have h1 := List.mem_filter.1 (List.getElem_mem (l := W) j.2)
    exact ⟨fun v hv => (worlds_valid h1.1 v).1 hv, by simpa using h1.2⟩
  have hw0 : ∀ j, 0 ≤ w j := by
    intro j
    refine div_nonneg ?_ hpos.le
    refine List.prod_nonneg fun a ha => ?_
    obtain ⟨nde, hnde, rfl⟩ := List.mem_map.1 ha
    refine hN.nonneg nde hnde _ fun a ha' => (hW j).1 a (hN.wf.args_sub nde hnde a ha')
  have hmass : ∀ (A : (V → S) → Prop) [DecidablePred A], massOf dom nodes x₀ (fun x => Agrees ev x ∧ A x) / M = ∑ j with A W[j], w j := by
    intro A _
    have e : massOf dom nodes x₀ (fun x => Agrees ev x ∧ A x) = ((W.filter fun x => A x).map (joint nodes)).sum := by
      rw [massOf, List.filter_filter]
      congr 2
      refine List.filter_congr fun x _ => ?_
      rw [Bool.and_comm, Bool.decide_and]
    rw [e, list_sum_filter, Finset.sum_div]
  have hw1 : ∑ j, w j = 1 := by
    have e := hmass fun _ => True
    rw [Finset.filter_true_of_mem fun _ _ => trivial] at e
    rw [← e]
    have e2 : massOf dom nodes x₀ (fun x => Agrees ev x ∧ True) = M := massOf_congr fun x => by simp
    rw [e2, div_self hpos.ne']
  let bad : V × S → Finset (Fin n → Fin W.length) := fun q =>
    Finset.univ.filter fun τ => n * ε ≤ |∑ k, (if W[τ k] q.1 = q.2 then (1 : ℝ) else 0) - n * ∑ j with W[j] q.1 = q.2, w j|
  have hbad : ∀ q, ∑ τ ∈ bad q, ∏ k, w (τ k) ≤ 2 * Real.exp (-2 * n * ε ^ 2) := fun q => draws_bound hw0 hw1 (fun j => W[j] q.1 = q.2) hε
  let σ : (Fin n → Fin W.length) → ℕ → V → S := fun τ k => W[τ ⟨k % n, Nat.mod_lt _ hn⟩]
  have hσ : ∀ τ, P {ω | SamplesAre nd dom nodes ev n (fun k i => ⟨pick k i ω, U k i ω⟩) (σ τ)} = ENNReal.ofReal (∏ k, w (τ k)) := by
    intro τ
    rw [samples_independent hnd hN hx₀ hk hev hpos n (σ τ) (fun k => hW _) h, Finset.prod_range, ENNReal.ofReal_prod_of_nonneg fun k _ => hw0 _]
    refine Finset.prod_congr rfl fun k _ => ?_
    have : (⟨(k : ℕ) % n, Nat.mod_lt _ hn⟩ : Fin n) = k := Fin.ext (Nat.mod_eq_of_lt k.2)
    simp only [σ, w, this, M]
  obtain ⟨res', hres', hperm, hval, -⟩ := query_conditional hnd hN hx₀ hk hev hpos
  rw [hres] at hres'
  cases hres'
  let all : Finset (V × S) := (allStates dom nodes).toFinset
  have hsub : {ω | ¬ ∃ ss, drawSamples nd dom nodes ev n (fun k i => ⟨pick k i ω, U k i ω⟩) = .ok ss ∧ ss.length = n ∧
        ∀ v s p, ((v, s), p) ∈ res → |(ss.countP fun sample => (v, s) ∈ sample) / (n : ℝ) - p| < ε} ⊆
      {ω | ∃ k i, U k i ω = 0} ∪ ⋃ q ∈ all, ⋃ τ ∈ bad q, {ω | SamplesAre nd dom nodes ev n (fun k i => ⟨pick k i ω, U k i ω⟩) (σ τ)} := by
    intro ω hω
    by_cases hz : ∃ k i, U k i ω = 0
    · exact Or.inl hz
    right
    push Not at hz
    obtain ⟨ss, s1, s2, s3⟩ := draw_samples_correct hnd hN hx₀ hk hev hpos n (fun k i => ⟨pick k i ω, U k i ω⟩)
      fun k i => ⟨lt_of_le_of_ne (h.range k i ω).1 (Ne.symm (hz k i)), (h.range k i ω).2.le⟩
    have hω : ¬ ∃ ss, drawSamples nd dom nodes ev n (fun k i => ⟨pick k i ω, U k i ω⟩) = .ok ss ∧ ss.length = n ∧
        ∀ v s p, ((v, s), p) ∈ res → |(ss.countP fun sample => (v, s) ∈ sample) / (n : ℝ) - p| < ε := hω
    have hfail : ¬ ∀ v s p, ((v, s), p) ∈ res → |(ss.countP fun sample => (v, s) ∈ sample) / (n : ℝ) - p| < ε := fun hc => hω ⟨ss, s1, s2, hc⟩
    push Not at hfail
    obtain ⟨v, s, p, hp, hbig⟩ := hfail
    have hq : (v, s) ∈ allStates dom nodes := hperm.mem_iff.1 (List.mem_map_of_mem hp)
    have hv : v ∈ nodes.map Node.var := by
      obtain ⟨nde, hnde, h2⟩ := List.mem_flatMap.1 hq
      obtain ⟨s', -, h3⟩ := List.mem_map.1 h2
      cases h3
      exact List.mem_map_of_mem hnde
    have hτ : ∀ k : Fin ss.length, ∃ j : Fin W.length, Agrees ss[k] W[j] := by
      intro k
      obtain ⟨t1, t2, t3, -⟩ := s3 ss[k] (List.getElem_mem _)
      let y : V → S := fun u => ((ss[k]).lookup u).getD (x₀ u)
      have hy : ∀ u ∈ nodes.map Node.var, (ss[k]).lookup u = some (y u) := by
        intro u hu
        obtain ⟨q, hq, rfl⟩ := List.mem_map.1 (t2.mem_iff.2 hu)
        have := lookup_of_mem_nodup (t2.nodup_iff.2 hN.wf.nodup) hq
        simp only [y, this, Option.getD_some]
      have hya : Agrees ss[k] y := (lookup_complete hN.wf.nodup t2 y).2 hy
      have hyd : ∀ u ∈ nodes.map Node.var, y u ∈ dom u := by
        intro u hu
        obtain ⟨q, hq, rfl⟩ := List.mem_map.1 (t2.mem_iff.2 hu)
        rw [hya q hq]
        exact t3 q hq
      obtain ⟨x, hx, hxy⟩ := Verif.Network.mem_worlds (dom := dom) (x₀ := x₀) hyd
      have hxa : Agrees ss[k] x := (lookup_complete hN.wf.nodup t2 x).2 fun u hu => by rw [hy u hu, hxy u hu]
      have hxW : x ∈ W := List.mem_filter.2 ⟨hx, by
        have : Agrees ev x := fun q hq => hxa q (t1.subset hq)
        simpa using this⟩
      obtain ⟨j, hj, rfl⟩ := List.getElem_of_mem hxW
      exact ⟨⟨j, hj⟩, hxa⟩
    choose τ hτ using hτ
    let τ' : Fin n → Fin W.length := fun k => τ (finCongr s2.symm k)
    refine Set.mem_iUnion₂.2 ⟨(v, s), List.mem_toFinset.2 hq, Set.mem_iUnion₂.2 ⟨τ', ?_, ss, s1, s2, fun k hk' => ?_⟩⟩
    · refine Finset.mem_filter.2 ⟨Finset.mem_univ _, ?_⟩
      have hc : ((ss.countP fun sample => (v, s) ∈ sample : ℕ) : ℝ) = ∑ k, (if W[τ' k] v = s then (1 : ℝ) else 0) := by
        have e := list_sum_filter ss (fun sample => (v, s) ∈ sample) fun _ => (1 : ℝ)
        rw [List.map_const', List.sum_replicate, nsmul_eq_mul, mul_one, ← List.countP_eq_length_filter, Finset.sum_filter] at e
        rw [e]
        refine Fintype.sum_equiv (finCongr s2) _ _ fun k => ?_
        have hiff : (v, s) ∈ ss[k] ↔ W[τ k] v = s := by
          constructor
          · intro hm
            exact hτ k _ hm
          · intro hm
            obtain ⟨t1, t2, t3, -⟩ := s3 ss[k] (List.getElem_mem _)
            obtain ⟨q, hmem, rfl⟩ := List.mem_map.1 (t2.mem_iff.2 hv)
            have := hτ k q hmem
            rw [hm] at this
            rw [this]
            exact hmem
        exact if_congr hiff rfl rfl
      have hpe := (hval v s p hp).1
      have hpe : p = ∑ j with W[j] v = s, w j := hpe.trans (hmass fun x => x v = s)
      rw [← hc, ← hpe]
      have hn' : (0 : ℝ) < n := by exact_mod_cast hn
      have e3 : ((ss.countP fun sample => (v, s) ∈ sample : ℕ) : ℝ) - n * p = n * ((ss.countP fun sample => (v, s) ∈ sample : ℕ) / (n : ℝ) - p) := by
        field_simp
      rw [e3, abs_mul, abs_of_pos hn']
      exact mul_le_mul_of_nonneg_left hbig hn'.le
    · have e : (⟨k % n, Nat.mod_lt _ hn⟩ : Fin n) = finCongr s2 ⟨k, hk'⟩ := Fin.ext (Nat.mod_eq_of_lt (s2 ▸ hk'))
      have e2 : τ' (finCongr s2 ⟨k, hk'⟩) = τ ⟨k, hk'⟩ := by simp [τ']
      simp only [σ, e, e2]
      exact hτ ⟨k, hk'⟩
  refine (measure_mono hsub).trans ((measure_union_le _ _).trans ?_)
  rw [h.positive, zero_add]
  refine (measure_biUnion_finset_le _ _).trans ?_
  have hone : ∀ q ∈ all, P (⋃ τ ∈ bad q, {ω | SamplesAre nd dom nodes ev n (fun k i => ⟨pick k i ω, U k i ω⟩) (σ τ)}) ≤
      ENNReal.ofReal (2 * Real.exp (-2 * n * ε ^ 2)) := by
    intro q _
    refine (measure_biUnion_finset_le _ _).trans ?_
    rw [Finset.sum_congr rfl fun τ _ => hσ τ, ← ENNReal.ofReal_sum_of_nonneg fun τ _ => Finset.prod_nonneg fun k _ => hw0 _]
    exact ENNReal.ofReal_le_ofReal (hbad q)
  refine (Finset.sum_le_sum hone).trans ?_
  rw [Finset.sum_const, nsmul_eq_mul, ← ENNReal.ofReal_natCast, ← ENNReal.ofReal_mul (Nat.cast_nonneg _)]
  refine ENNReal.ofReal_le_ofReal ?_
  have hcard : (all.card : ℝ) ≤ (allStates dom nodes).length := by exact_mod_cast List.toFinset_card_le _
  have := mul_le_mul_of_nonneg_right hcard (by positivity : 0 ≤ 2 * Real.exp (-2 * n * ε ^ 2))
  linarith

end Verif.Consistent
