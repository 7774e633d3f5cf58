import Verif.Consistent.AnyLawProps

/-!
# C155: predictions when the structure is wrong
-/

namespace Verif.Consistent

open Verif.BBN Function MeasureTheory ProbabilityTheory Filter Topology
open Verif.Graph (EdgeRel)
open Verif.Network (FitArgs Net DF Heap IsStructure IsParentList IsConditional GoodArgs statesOf fitCpds cpds predict predict_argmax Table)

section
set_option linter.unusedSectionVars false
variable {V S : Type} [LinearOrder V] [LinearOrder S] {Ω : Type} [MeasurableSpace Ω]

/-- A table whose entries are close to conditional probabilities gives predictions with the greatest conditional probability. -/
theorem predict_of_table {int : ℕ → S} (hint : Injective int) {ns : List V} {E : List (V × V)} (hE : IsStructure ns E)
    {net : Net V S ℝ} (hr : Verif.Network.Reach int ns E net) {x₀ : V → S} (hx₀ : ∀ v ∈ net.nodes, x₀ v ∈ statesOf net v)
    {par : V → List V} (hpar : ∀ v ∈ net.nodes, ∀ p ∈ par v, p ∈ net.nodes) {Q : V → S → List S → ℝ} {ε : ℝ}
    {a : FitArgs ℝ} {h h' : Heap V S} {ref : ℕ} {net' : Net V S ℝ} (hf : fitCpds int net h ref a = (net', h', .ok ()))
    {tables : List (V × Table V S ℝ)} (hc : cpds net' = .ok tables) {v : V} (hv : v ∈ net.nodes) {t : Table V S ℝ} (ht : (v, t) ∈ tables)
    (hpt : t.parents = par v) (hgap : ∀ z : V → S, (∀ u ∈ net.nodes, z u ∈ statesOf net u) → ∀ s ∈ statesOf net v, ∀ s' ∈ statesOf net v,
      Q v s ((par v).map z) < Q v s' ((par v).map z) → 2 * ε < Q v s' ((par v).map z) - Q v s ((par v).map z))
    (hent : ∀ s ∈ statesOf net v, ∀ z : V → S, (∀ u ∈ net.nodes, z u ∈ statesOf net u) →
      ∃ q, t.entry s ((par v).map z) = some q ∧ |q - Q v s ((par v).map z)| ≤ ε) :
    ∃ g : List S → S,
      (∀ (h₂ : Heap V S) (ref₂ : ℕ) (df : DF V S), h₂[ref₂]? = some df → (∀ u ∈ par v, u ∈ df.cols) →
        (∀ r ∈ df.rows, ∀ u ∈ par v, ∃ s ∈ statesOf net u, r u = some s) → ∀ (oracle : DF V S → List ℕ) (predName : V → V),
        ∃ h₃ out, predict oracle int predName net' h₂ ref₂ v = (h₃, .ok out) ∧
          List.Forall₂ (fun r r' => ∃ ps, (par v).map r = ps.map some ∧ r' (predName v) = some (g ps)) df.rows out.rows) ∧
      ∀ z : V → S, (∀ u ∈ net.nodes, z u ∈ statesOf net u) →
        g ((par v).map z) ∈ statesOf net v ∧ ∀ s ∈ statesOf net v, Q v s ((par v).map z) ≤ Q v (g ((par v).map z)) ((par v).map z) := by
  classical
  have hne : ∀ v ∈ net.nodes, statesOf net v ≠ [] := fun v hv => List.ne_nil_of_mem (hx₀ v hv)
  let Best : List S → S → Prop := fun ps s => s ∈ statesOf net v ∧ ∃ x, t.entry s ps = some x ∧
    ∀ s' ∈ statesOf net v, ∃ y, t.entry s' ps = some y ∧ y ≤ x ∧ (s' < s → y < x)
  have huniq : ∀ ps s s', Best ps s → Best ps s' → s = s' := by
    have key : ∀ ps s s', Best ps s → Best ps s' → ¬ s < s' := by
      rintro ps s s' ⟨hs, x, hx, h1⟩ ⟨hs', x', hx', h2⟩ hlt
      obtain ⟨y, hy, hyx, -⟩ := h1 s' hs'
      obtain ⟨y', hy', -, hyx'⟩ := h2 s hs
      rw [hx'] at hy
      rw [hx] at hy'
      cases hy
      cases hy'
      exact absurd (hyx' hlt) (not_lt.2 hyx)
    intro ps s s' h1 h2
    exact le_antisymm (not_lt.1 (key ps s' s h2 h1)) (not_lt.1 (key ps s s' h1 h2))
  let g : List S → S := fun ps => if hb : ∃ s, Best ps s then hb.choose else x₀ v
  have hgeq : ∀ ps s, Best ps s → g ps = s := by
    intro ps s hs
    have hb : ∃ s, Best ps s := ⟨s, hs⟩
    change (if hb : ∃ s, Best ps s then hb.choose else x₀ v) = s
    rw [dif_pos hb]
    exact huniq ps _ _ hb.choose_spec hs
  have hpred : ∀ (h₂ : Heap V S) (ref₂ : ℕ) (df : DF V S), h₂[ref₂]? = some df → (∀ u ∈ par v, u ∈ df.cols) →
      (∀ r ∈ df.rows, ∀ u ∈ par v, ∃ s ∈ statesOf net u, r u = some s) → ∀ (oracle : DF V S → List ℕ) (predName : V → V),
      ∃ h₃ out, predict oracle int predName net' h₂ ref₂ v = (h₃, .ok out) ∧
        List.Forall₂ (fun r r' => ∃ ps, (par v).map r = ps.map some ∧ r' (predName v) = some (g ps) ∧ Best ps (g ps)) df.rows out.rows := by
    intro h₂ ref₂ df hdf hcols hk oracle predName
    rw [← hpt] at hcols hk
    obtain ⟨h₃, out, h1, -, -, h2⟩ := predict_argmax hint hE hr hne hf hc ht hdf hcols hk oracle predName
    refine ⟨h₃, out, h1, h2.imp ?_⟩
    rintro r r' ⟨s, hs, ps, x, hps, hr', hx, hmax⟩
    have hb : Best ps s := ⟨hs, x, hx, hmax⟩
    rw [hpt] at hps
    refine ⟨ps, hps, ?_, ?_⟩
    · rw [hgeq ps s hb]; exact hr'
    · rw [hgeq ps s hb]; exact hb
  have hbest : ∀ z : V → S, (∀ u ∈ net.nodes, z u ∈ statesOf net u) → Best ((par v).map z) (g ((par v).map z)) := by
    intro z hz
    obtain ⟨-, out, -, h2⟩ := hpred [⟨par v, [fun u => some (z u)]⟩] 0 ⟨par v, [fun u => some (z u)]⟩ rfl (fun u hu => hu) (by
      intro r hr u hu
      rw [List.mem_singleton.1 hr]
      exact ⟨z u, hz u (hpar v hv u hu), rfl⟩) (fun _ => []) id
    obtain ⟨r', -, ⟨ps, hps, -, hb⟩, -⟩ := List.forall₂_cons_left_iff.1 h2
    have : ps = (par v).map z := by
      apply List.map_injective_iff.2 (Option.some_injective S)
      rw [← hps, List.map_map]
      rfl
    rw [← this]
    exact hb
  refine ⟨g, fun h₂ ref₂ df hdf hcols hk oracle predName => ?_, fun z hz => ?_⟩
  · obtain ⟨h₃, out, h1, h2⟩ := hpred h₂ ref₂ df hdf hcols hk oracle predName
    exact ⟨h₃, out, h1, h2.imp fun r r' ⟨ps, a1, a2, _⟩ => ⟨ps, a1, a2⟩⟩
  · obtain ⟨hgs, x, hx, hmax⟩ := hbest z hz
    refine ⟨hgs, fun s hs => ?_⟩
    by_contra hlt
    rw [not_le] at hlt
    obtain ⟨y, hy, hyx, -⟩ := hmax s hs
    obtain ⟨q₁, hq₁, hd₁⟩ := hent s hs z hz
    obtain ⟨q₂, hq₂, hd₂⟩ := hent _ hgs z hz
    rw [hy] at hq₁
    rw [hx] at hq₂
    cases hq₁
    cases hq₂
    have := hgap z hz _ hgs s hs hlt
    rw [abs_le] at hd₁ hd₂
    linarith [hd₁.1, hd₁.2, hd₂.1, hd₂.2]

/-- A rule that returns a most probable state given the parents is right at least as often as any other rule that uses the parents. -/
theorem rule_le {dom : V → List S} {vs : List V} {J : (V → S) → ℝ} {x₀ : V → S} (hJ : ∀ x ∈ worlds dom vs x₀, 0 ≤ J x) {v : V} (hv : v ∈ vs)
    (us : List V) {g : List S → S} (hg : ∀ z ∈ worlds dom vs x₀, ∀ s ∈ dom v, massWith dom vs J x₀ (fun x => x v = s ∧ us.map x = us.map z) ≤
      massWith dom vs J x₀ (fun x => x v = g (us.map z) ∧ us.map x = us.map z)) (f : List S → S) :
    massWith dom vs J x₀ (fun x => f (us.map x) = x v) ≤ massWith dom vs J x₀ (fun x => g (us.map x) = x v) := by
  let W := worlds dom vs x₀
  let ks : List (List S) := (W.map fun x => us.map x).dedup
  have hsplit : ∀ (A : (V → S) → Prop) [DecidablePred A], massWith dom vs J x₀ A =
      (ks.map fun c => massWith dom vs J x₀ (fun x => A x ∧ us.map x = c)).sum := by
    intro A _
    unfold massWith
    rw [sum_filter_key (W.filter fun x => A x) (fun x => us.map x) J ks (List.nodup_dedup _)
      (fun x hx => List.mem_dedup.2 (List.mem_map_of_mem (List.mem_filter.1 hx).1))]
    refine congrArg List.sum (List.map_congr_left fun c _ => ?_)
    rw [List.filter_filter]
    congr 2
    refine List.filter_congr fun x _ => ?_
    rw [Bool.decide_and, Bool.and_comm]
  rw [hsplit, hsplit]
  refine List.sum_le_sum fun c hc => ?_
  obtain ⟨z, hz, rfl⟩ := List.mem_map.1 (List.mem_dedup.1 hc)
  have e : ∀ r : List S → S, ∀ x : V → S, r (us.map x) = x v ∧ us.map x = us.map z ↔ x v = r (us.map z) ∧ us.map x = us.map z := fun r x =>
    and_congr_left fun hx => by rw [hx]; exact eq_comm
  rw [massWith_congr (e f), massWith_congr (e g)]
  by_cases hfz : f (us.map z) ∈ dom v
  · exact hg z hz _ hfz
  · have h0 : massWith dom vs J x₀ (fun x => x v = f (us.map z) ∧ us.map x = us.map z) = 0 := by
      unfold massWith
      rw [List.filter_eq_nil_iff.2]
      · rfl
      · intro x hx
        simp only [decide_eq_true_eq, not_and]
        exact fun e => absurd (e ▸ (worlds_valid hx v).1 hv) hfz
    rw [h0]
    exact mass_nonneg_of hJ _

/-- **C155**, predictions: whatever the distribution of the rows, almost surely from some number of rows on `predict` returns a state that is
most probable given the states of the parents, and no rule that uses the parents is right with a larger probability. -/
theorem any_distribution_predict {int : ℕ → S} (hint : Injective int) {ns : List V} {E : List (V × V)} (hE : IsStructure ns E) (hEne : E ≠ [])
    {net : Net V S ℝ} (hr : Verif.Network.Reach int ns E net) {x₀ : V → S} (hx₀ : ∀ v ∈ net.nodes, x₀ v ∈ statesOf net v)
    {par : V → List V} (hpar : ∀ v ∈ net.nodes, IsParentList E v (par v))
    {P : Measure Ω} [IsProbabilityMeasure P] {R : ℕ → Ω → V → S} (hR : SameRows P (statesOf net) net.nodes R) :
    ∀ᵐ ω ∂P, ∀ a : FitArgs ℝ, GoodArgs a → (∀ n, a.ess = some n → 0 < n) → ∃ n₀ : ℕ, ∀ n, n₀ ≤ n →
      ∀ (h : Heap V S) (ref : ℕ) (train : DF V S), h[ref]? = some train → RowsAre net.nodes train (fun i : Fin n => R i ω) →
      ∃ net' h', fitCpds int net h ref a = (net', h', .ok ()) ∧ ∀ v ∈ net.nodes, ∃ g : List S → S,
        -- the predictions are given by a function of the states of the parents,
        (∀ (h₂ : Heap V S) (ref₂ : ℕ) (df : DF V S), h₂[ref₂]? = some df → (∀ u ∈ par v, u ∈ df.cols) →
          (∀ r ∈ df.rows, ∀ u ∈ par v, ∃ s ∈ statesOf net u, r u = some s) → ∀ (oracle : DF V S → List ℕ) (predName : V → V),
          ∃ h₃ out, predict oracle int predName net' h₂ ref₂ v = (h₃, .ok out) ∧
            List.Forall₂ (fun r r' => ∃ ps, (par v).map r = ps.map some ∧ r' (predName v) = some (g ps)) df.rows out.rows) ∧
        -- this function returns a state that is most probable given the states of the parents,
        (∀ z : V → S, (∀ u ∈ net.nodes, z u ∈ statesOf net u) → g ((par v).map z) ∈ statesOf net v ∧ ∀ s ∈ statesOf net v,
          rowProb P R (fun x => x v = s ∧ (par v).map x = (par v).map z) ≤
            rowProb P R (fun x => x v = g ((par v).map z) ∧ (par v).map x = (par v).map z)) ∧
        -- and no other function is right more often.
        ∀ f : List S → S, rowProb P R (fun x => f ((par v).map x) = x v) ≤ rowProb P R (fun x => g ((par v).map x) = x v) := by
  have hM := isModel_of hE hr (states_nodup hE hr) hpar (limit_conditional hE hr hx₀ hpar hR)
  have hL := isLimit hR hM.nodup hM.states hM.parents x₀
  obtain ⟨ε, hε, hgap⟩ := exists_gap net.nodes (statesOf net) par (limitTable P R (statesOf net) par) (worlds (statesOf net) net.nodes x₀)
  filter_upwards [any_distribution hint hE hEne hr hx₀ hpar hR] with ω hω
  intro a ha hess
  obtain ⟨n₀, hn₀⟩ := hω a ha hess (ε / 3) (by positivity)
  refine ⟨n₀, fun n hn h ref train htr hrows => ?_⟩
  obtain ⟨net', h', tables, hf, hc, hkeys, hclose, -⟩ := hn₀ n hn h ref train htr hrows
  refine ⟨net', h', hf, fun v hv => ?_⟩
  obtain ⟨⟨v, t⟩, ht, rfl⟩ := List.mem_map.1 (hkeys ▸ hv)
  obtain ⟨hpt, hent⟩ := hclose v t ht
  dsimp only at hv ⊢
  obtain ⟨g, hg1, hg2⟩ := predict_of_table hint hE hr hx₀ hM.parents (Q := limitTable P R (statesOf net) par) (ε := ε / 3) hf hc hv ht hpt (by
    intro z hz s hs s' hs' hlt
    obtain ⟨z', hz', he⟩ := Verif.Network.mem_worlds (dom := statesOf net) (vs := net.nodes) (x₀ := x₀) (y := z) hz
    have hmz : (par v).map z' = (par v).map z := map_par_congr (hM.parents v hv) he
    have := hgap v hv z' hz' s hs s' hs' (by rw [hmz]; exact hlt)
    rw [hmz] at this
    linarith) hent
  have e2 : ∀ (s : S) (z : V → S), rowProb P R (fun x => x v = s ∧ (par v).map x = (par v).map z) =
      massWith (statesOf net) net.nodes (rowLaw P R net.nodes) x₀ (fun x => x v = s ∧ (par v).map x = (par v).map z) := fun s z =>
    rowProb_eq hR hM.nodup hM.states x₀ _ fun x y h => by rw [map_par_congr (hM.parents v hv) h, h v hv]
  have e3 : ∀ r : List S → S, rowProb P R (fun x => r ((par v).map x) = x v) =
      massWith (statesOf net) net.nodes (rowLaw P R net.nodes) x₀ (fun x => r ((par v).map x) = x v) := fun r =>
    rowProb_eq hR hM.nodup hM.states x₀ _ fun x y h => by rw [map_par_congr (hM.parents v hv) h, h v hv]
  have hopt : ∀ z : V → S, (∀ u ∈ net.nodes, z u ∈ statesOf net u) → g ((par v).map z) ∈ statesOf net v ∧ ∀ s ∈ statesOf net v,
      rowProb P R (fun x => x v = s ∧ (par v).map x = (par v).map z) ≤
        rowProb P R (fun x => x v = g ((par v).map z) ∧ (par v).map x = (par v).map z) := by
    intro z hz
    obtain ⟨h1, h2⟩ := hg2 z hz
    refine ⟨h1, fun s hs => ?_⟩
    rw [e2, e2, hL.cond v hv z hz s hs, hL.cond v hv z hz _ h1]
    exact mul_le_mul_of_nonneg_right (h2 s hs) (mass_nonneg_of hL.nonneg _)
  refine ⟨g, hg1, hopt, fun f => ?_⟩
  rw [e3, e3]
  refine rule_le hL.nonneg hv (par v) (fun z hz s hs => ?_) f
  rw [← e2, ← e2]
  exact (hopt z fun u hu => (worlds_valid hz u).1 hu).2 s hs

end

end Verif.Consistent
