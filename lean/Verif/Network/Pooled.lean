import Verif.Network.Prior

/-!
# C159: fitting to two data sets together, and to one more row
-/

namespace Verif.Network

open Function

section
variable {V S K : Type} [LinearOrder V] [LinearOrder S] [Field K] [LinearOrder K] [IsStrictOrderedRing K]

/-! ### Specification -/

/-- Specification: the number of rows that what is assumed before seeing data is worth; none with maximum likelihood. -/
def assumedRows (a : FitArgs K) (k cfgs : ℕ) : K := if a.method = "MaximumLikelihoodEstimator" then 0 else priorRows a k cfgs

/-- Specification: arguments of `fit_cpds` that are accepted, the equivalent sample size being positive. -/
def Accepted (a : FitArgs K) : Prop := a.method = "MaximumLikelihoodEstimator" ∨ Bayesian a

/-! ### Estimates -/

theorem assumedRows_nonneg {a : FitArgs K} (ha : Accepted a) {k cfgs : ℕ} (hk : 0 < k) (hc : 0 < cfgs) : 0 ≤ assumedRows a k cfgs := by
  unfold assumedRows
  rcases ha with h | h
  · rw [if_pos h]
  · rw [if_neg (by rw [h.1]; decide)]
    exact (priorRows_pos h hk hc).le

/-- Estimates are determined by counts. -/
theorem estimate_counts {a : FitArgs K} (ha : Accepted a) {ks : List S} {cfgs : ℕ} (hc : 0 < cfgs) (N : S → ℕ) {s : S} (hs : s ∈ ks) :
    (((ks.map N).sum : ℕ) + assumedRows a ks.length cfgs) * estimate a ks cfgs N s = N s + assumedRows a ks.length cfgs * (1 / ks.length) := by
  have hle : N s ≤ (ks.map N).sum := List.single_le_sum (by simp) _ (List.mem_map_of_mem hs)
  have hml : ∀ a₀ : FitArgs K, a₀.method = "MaximumLikelihoodEstimator" → (((ks.map N).sum : ℕ) : K) * estimate a₀ ks cfgs N s = N s := by
    intro a₀ ha₀
    unfold estimate
    dsimp only
    rw [if_pos ha₀]
    by_cases h0 : (ks.map N).sum = 0
    · rw [if_pos h0, h0]
      have : N s = 0 := by omega
      simp [this]
    · rw [if_neg h0]
      have : (((ks.map N).sum : ℕ) : K) ≠ 0 := by exact_mod_cast h0
      rw [mul_div_cancel₀ _ this]
  unfold assumedRows
  rcases ha with h | h
  · rw [if_pos h, add_zero, zero_mul, add_zero, hml a h]
  · rw [if_neg (by rw [h.1]; decide), estimate_bayesian (a₀ := ({ method := "MaximumLikelihoodEstimator" } : FitArgs K)) h rfl hc N hs, hml _ rfl]

theorem Accepted.ess {a : FitArgs K} (ha : Accepted a) : ∃ a' : FitArgs K, (∀ n, a'.ess = some n → 0 < n) ∧
    (a'.method = "MaximumLikelihoodEstimator" ∨ a'.prior = some "K2" ∨ a'.ess ≠ none) ∧
    ∀ (ks : List S) (cfgs : ℕ) (N : S → ℕ), estimate a' ks cfgs N = estimate a ks cfgs N := by
  rcases ha with h | ⟨h, h' | ⟨h', n, hn, hn0⟩⟩
  · refine ⟨{ a with ess := none }, (fun n hn => by cases hn), Or.inl h, fun ks cfgs N => ?_⟩
    funext s
    unfold estimate
    dsimp only
    rw [if_pos h, if_pos h]
  · refine ⟨{ a with ess := none }, (fun n hn => by cases hn), Or.inr (Or.inl h'), fun ks cfgs N => ?_⟩
    have hm : a.method ≠ "MaximumLikelihoodEstimator" := by rw [h]; decide
    funext s
    unfold estimate
    dsimp only
    rw [if_neg hm, if_neg hm, if_pos h', if_pos h']
  · refine ⟨a, fun m hm => ?_, Or.inr (Or.inr (by rw [hn]; simp)), fun _ _ _ => rfl⟩
    rw [hn] at hm
    cases hm
    exact hn0

theorem estimate_range {a : FitArgs K} (ha : Accepted a) {ks : List S} {cfgs : ℕ} (hc : 0 < cfgs) (N : S → ℕ) {s : S} (hs : s ∈ ks) :
    0 ≤ estimate a ks cfgs N s ∧ estimate a ks cfgs N s ≤ 1 := by
  obtain ⟨a', h1, h2, h3⟩ := ha.ess (S := S)
  obtain ⟨p0, psum⟩ := estimate_prob h1 h2 (List.ne_nil_of_mem hs) hc N
  rw [h3] at p0 psum
  refine ⟨p0 s, ?_⟩
  rw [← psum]
  refine List.single_le_sum ?_ _ (List.mem_map_of_mem hs)
  intro x hx
  obtain ⟨s, -, rfl⟩ := List.mem_map.1 hx
  exact p0 s

/-- Estimates with the same counts are the same. -/
theorem estimate_same {a : FitArgs K} {ks : List S} {cfgs : ℕ} {N N' : S → ℕ} (h : ∀ s ∈ ks, N s = N' s) {s : S} (hs : s ∈ ks) :
    estimate a ks cfgs N s = estimate a ks cfgs N' s := by
  have : ks.map N = ks.map N' := List.map_congr_left h
  unfold estimate
  dsimp only
  rw [this, h s hs]

/-! ### Networks -/

/-- What the tables of two networks, fitted with the same arguments to two sets of data, have in common. -/
theorem fit_entries {int : ℕ → S} (hint : Injective int) {ns : List V} {E : List (V × V)} (hE : IsStructure ns E) {net net₁ : Net V S K}
    (hr : Reach int ns E net) (hne : ∀ v ∈ net.nodes, statesOf net v ≠ []) {h h₁ : Heap V S} {ref : ℕ} {df : DF V S} (hdf : h[ref]? = some df)
    {a : FitArgs K} (hf : fitCpds int net h ref a = (net₁, h₁, .ok ())) :
    ∃ tables, cpds net₁ = .ok tables ∧ tables.map Prod.fst = net.nodes ∧ (∀ v, (statesOf net v).Nodup) ∧
      ∀ v t, (v, t) ∈ tables → v ∈ net.nodes ∧ IsParentList E v t.parents ∧ 0 < (t.parents.map fun u => (statesOf net u).length).prod ∧
        ∀ s ∈ statesOf net v, ∀ ps, IsConfig net t.parents ps → t.entry s ps = some (estimate a (statesOf net v)
          (t.parents.map fun u => (statesOf net u).length).prod (fun s => observed net df v t.parents s ps) s) := by
  have hw := hr.wf hE
  obtain ⟨-, -, -, tables, hc, hk, f⟩ := fit_cpds_correct hint hE hr hne hdf hf
  obtain ⟨states, -, -, hst, -⟩ := fitCpds_ok hw hf
  refine ⟨tables, hc, hk, fun v => ?_, fun v t ht => ?_⟩
  · rw [statesOf_eq hst]
    exact keysOf_nodup (hw.encWF hst) v
  · obtain ⟨-, hp, -, -, e⟩ := f v t ht
    refine ⟨hk ▸ List.mem_map_of_mem (f := Prod.fst) ht, hp, prod_pos_of_states hne fun p hpp => ?_, e⟩
    rw [hw.nodes]
    exact mem_nodesOfEdges.2 ⟨(p, v), (hp.2 p).1 hpp, Or.inl rfl⟩

theorem fit_ok_again {int : ℕ → S} {ns : List V} {E : List (V × V)} (hE : IsStructure ns E) {net net₁ : Net V S K}
    (hr : Reach int ns E net) {h h' h₁ : Heap V S} {ref ref' : ℕ} {df df' : DF V S} (hdf : h[ref]? = some df) (hdf' : h'[ref']? = some df')
    (hcols : ∀ v ∈ df.cols, v ∈ df'.cols) {a : FitArgs K} (hf : fitCpds int net h ref a = (net₁, h₁, .ok ())) :
    ∃ net₂ h₂, fitCpds int net h' ref' a = (net₂, h₂, .ok ()) := by
  have hok : (fitCpds int net h ref a).2.2 = .ok () := by rw [hf]
  rw [fit_ok_iff hE hr hdf] at hok
  have hok' : (fitCpds int net h' ref' a).2.2 = .ok () := by
    rw [fit_ok_iff hE hr hdf']
    exact ⟨hok.1, fun v hv => hcols v (hok.2.1 v hv), hok.2.2⟩
  exact ⟨(fitCpds int net h' ref' a).1, (fitCpds int net h' ref' a).2.1, by rw [← hok']⟩

/-- **C159**, two data sets: fit a network to two data sets and to both together, with the same method.  The last fit succeeds if the others do,
and its entries `p` follow from the others: without a prior they are the means, weighted with the numbers of rows with the states of the parents,
and lie between the entries `p₁` and `p₂`. -/
theorem pooled_entries {int : ℕ → S} (hint : Injective int) {ns : List V} {E : List (V × V)} (hE : IsStructure ns E) {net net₁ net₂ : Net V S K}
    (hr : Reach int ns E net) (hne : ∀ v ∈ net.nodes, statesOf net v ≠ []) {h h₁ h₂ : Heap V S} {ref₁ ref₂ ref : ℕ} {df₁ df₂ df : DF V S}
    (hdf₁ : h[ref₁]? = some df₁) (hdf₂ : h[ref₂]? = some df₂) (hdf : h[ref]? = some df) (hcols : ∀ v ∈ df₁.cols, v ∈ df.cols)
    (hrows : df.rows.Perm (df₁.rows ++ df₂.rows)) {a : FitArgs K} (ha : Accepted a)
    (hf₁ : fitCpds int net h ref₁ a = (net₁, h₁, .ok ())) (hf₂ : fitCpds int net h ref₂ a = (net₂, h₂, .ok ())) :
    ∃ net' h' tables₁ tables₂ tables, fitCpds int net h ref a = (net', h', .ok ()) ∧
      cpds net₁ = .ok tables₁ ∧ cpds net₂ = .ok tables₂ ∧ cpds net' = .ok tables ∧ tables.map Prod.fst = net.nodes ∧
      ∀ v t₁ t₂ t, (v, t₁) ∈ tables₁ → (v, t₂) ∈ tables₂ → (v, t) ∈ tables → ∀ s ∈ statesOf net v, ∀ ps, IsConfig net t.parents ps →
        ∃ p₁ p₂ p, t₁.entry s ps = some p₁ ∧ t₂.entry s ps = some p₂ ∧ t.entry s ps = some p ∧
          let n₁ : K := knownRowsWith net df₁ t.parents ps
          let n₂ : K := knownRowsWith net df₂ t.parents ps
          let w : K := assumedRows a (statesOf net v).length (t.parents.map fun u => (statesOf net u).length).prod
          (n₁ + n₂ + w) * p = (n₁ + w) * p₁ + (n₂ + w) * p₂ - w * (1 / (statesOf net v).length) ∧
          (a.method = "MaximumLikelihoodEstimator" → min p₁ p₂ ≤ p ∧ p ≤ max p₁ p₂) := by
  obtain ⟨net', h', hf⟩ := fit_ok_again hE hr hdf₁ hdf hcols hf₁
  obtain ⟨tables₁, hc₁, -, -, f₁⟩ := fit_entries hint hE hr hne hdf₁ hf₁
  obtain ⟨tables₂, hc₂, -, -, f₂⟩ := fit_entries hint hE hr hne hdf₂ hf₂
  obtain ⟨tables, hc, hk, hks, f⟩ := fit_entries hint hE hr hne hdf hf
  refine ⟨net', h', tables₁, tables₂, tables, hf, hc₁, hc₂, hc, hk, fun v t₁ t₂ t ht₁ ht₂ ht s hs ps hps => ?_⟩
  obtain ⟨-, hp₁, -, e₁⟩ := f₁ v t₁ ht₁
  obtain ⟨-, hp₂, -, e₂⟩ := f₂ v t₂ ht₂
  obtain ⟨hv, hp, hcfg, e⟩ := f v t ht
  have q₁ : t₁.parents = t.parents := parentList_unique hp₁ hp
  have q₂ : t₂.parents = t.parents := parentList_unique hp₂ hp
  refine ⟨_, _, _, e₁ s hs ps (q₁ ▸ hps), e₂ s hs ps (q₂ ▸ hps), e s hs ps hps, ?_⟩
  rw [q₁, q₂]
  intro n₁ n₂ w
  have o : ∀ s, observed net df v t.parents s ps = observed net df₁ v t.parents s ps + observed net df₂ v t.parents s ps := by
    intro s
    unfold observed
    rw [hrows.countP_eq, List.countP_append]
  have oN : knownRowsWith net df t.parents ps = knownRowsWith net df₁ t.parents ps + knownRowsWith net df₂ t.parents ps := by
    unfold knownRowsWith
    rw [hrows.countP_eq, List.countP_append]
  have m₁ := estimate_counts ha hcfg (fun s => observed net df₁ v t.parents s ps) hs
  have m₂ := estimate_counts ha hcfg (fun s => observed net df₂ v t.parents s ps) hs
  have m := estimate_counts ha hcfg (fun s => observed net df v t.parents s ps) hs
  rw [observed_sum hks df₁ hv] at m₁
  rw [observed_sum hks df₂ hv] at m₂
  rw [observed_sum hks df hv, oN, o s, Nat.cast_add, Nat.cast_add] at m
  have hmain : (n₁ + n₂ + w) * estimate a (statesOf net v) (t.parents.map fun u => (statesOf net u).length).prod
      (fun s => observed net df v t.parents s ps) s = (n₁ + w) * estimate a (statesOf net v) (t.parents.map fun u => (statesOf net u).length).prod
      (fun s => observed net df₁ v t.parents s ps) s + (n₂ + w) * estimate a (statesOf net v) (t.parents.map fun u => (statesOf net u).length).prod
      (fun s => observed net df₂ v t.parents s ps) s - w * (1 / (statesOf net v).length) := by
    linear_combination m - m₁ - m₂
  refine ⟨hmain, fun hml => ?_⟩
  have hw : w = 0 := if_pos hml
  have hn₁ : 0 ≤ n₁ := Nat.cast_nonneg _
  have hn₂ : 0 ≤ n₂ := Nat.cast_nonneg _
  by_cases h1 : knownRowsWith net df₁ t.parents ps + knownRowsWith net df₂ t.parents ps = 0
  · have z : ∀ d : DF V S, knownRowsWith net d t.parents ps = 0 → ∀ s, observed net d v t.parents s ps = 0 := by
      intro d hd s
      unfold observed
      unfold knownRowsWith at hd
      rw [List.countP_eq_zero] at hd ⊢
      intro r hr h
      simp only [decide_eq_true_eq] at h
      exact hd r hr (by simpa using ⟨h.1, h.2.2⟩)
    have z1 := z df₁ (by omega)
    have z' := z df (by omega)
    rw [estimate_same (N := fun s => observed net df v t.parents s ps) (N' := fun s => observed net df₁ v t.parents s ps)
      (fun s _ => by rw [z1, z']) hs]
    exact ⟨min_le_left _ _, le_max_left _ _⟩
  · have hpos : 0 < n₁ + n₂ := by
      have : (0 : K) < ((knownRowsWith net df₁ t.parents ps + knownRowsWith net df₂ t.parents ps : ℕ) : K) := by exact_mod_cast Nat.pos_of_ne_zero h1
      rwa [Nat.cast_add] at this
    rw [hw] at hmain
    generalize estimate a (statesOf net v) (t.parents.map fun u => (statesOf net u).length).prod
      (fun s => observed net df v t.parents s ps) s = p at *
    generalize estimate a (statesOf net v) (t.parents.map fun u => (statesOf net u).length).prod
      (fun s => observed net df₁ v t.parents s ps) s = p₁ at *
    generalize estimate a (statesOf net v) (t.parents.map fun u => (statesOf net u).length).prod
      (fun s => observed net df₂ v t.parents s ps) s = p₂ at *
    have i1 := mul_le_mul_of_nonneg_left (min_le_left p₁ p₂) hn₁
    have i2 := mul_le_mul_of_nonneg_left (min_le_right p₁ p₂) hn₂
    have i3 := mul_le_mul_of_nonneg_left (le_max_left p₁ p₂) hn₁
    have i4 := mul_le_mul_of_nonneg_left (le_max_right p₁ p₂) hn₂
    constructor
    · refine le_of_mul_le_mul_left ?_ hpos
      linarith
    · refine le_of_mul_le_mul_left ?_ hpos
      linarith

/-- **C159**, one more row: an entry changes by at most `1 / (n + w + 1)`, `n` being the number of rows with the states of the parents before and
`w` what the prior is worth; not at all if the row has other states of the parents, or if it is not complete. -/
theorem one_more_row {int : ℕ → S} (hint : Injective int) {ns : List V} {E : List (V × V)} (hE : IsStructure ns E) {net net₁ : Net V S K}
    (hr : Reach int ns E net) (hne : ∀ v ∈ net.nodes, statesOf net v ≠ []) {h h₁ : Heap V S} {ref₁ ref : ℕ} {df₁ df : DF V S}
    (hdf₁ : h[ref₁]? = some df₁) (hdf : h[ref]? = some df) (hcols : ∀ v ∈ df₁.cols, v ∈ df.cols) {r : V → Option S}
    (hrows : df.rows.Perm (r :: df₁.rows)) {a : FitArgs K} (ha : Accepted a) (hf₁ : fitCpds int net h ref₁ a = (net₁, h₁, .ok ())) :
    ∃ net' h' tables₁ tables, fitCpds int net h ref a = (net', h', .ok ()) ∧
      cpds net₁ = .ok tables₁ ∧ cpds net' = .ok tables ∧ tables.map Prod.fst = net.nodes ∧
      ∀ v t₁ t, (v, t₁) ∈ tables₁ → (v, t) ∈ tables → ∀ s ∈ statesOf net v, ∀ ps, IsConfig net t.parents ps →
        ∃ p₁ p, t₁.entry s ps = some p₁ ∧ t.entry s ps = some p ∧
          |p - p₁| ≤ 1 / (knownRowsWith net df₁ t.parents ps +
            assumedRows a (statesOf net v).length (t.parents.map fun u => (statesOf net u).length).prod + 1) ∧
          (¬ (Known net r ∧ t.parents.map r = ps.map some) → p = p₁) := by
  obtain ⟨net', h', hf⟩ := fit_ok_again hE hr hdf₁ hdf hcols hf₁
  obtain ⟨tables₁, hc₁, -, -, f₁⟩ := fit_entries hint hE hr hne hdf₁ hf₁
  obtain ⟨tables, hc, hk, hks, f⟩ := fit_entries hint hE hr hne hdf hf
  refine ⟨net', h', tables₁, tables, hf, hc₁, hc, hk, fun v t₁ t ht₁ ht s hs ps hps => ?_⟩
  obtain ⟨-, hp₁, -, e₁⟩ := f₁ v t₁ ht₁
  obtain ⟨hv, hp, hcfg, e⟩ := f v t ht
  have q₁ : t₁.parents = t.parents := parentList_unique hp₁ hp
  refine ⟨_, _, e₁ s hs ps (q₁ ▸ hps), e s hs ps hps, ?_⟩
  rw [q₁]
  have hw := assumedRows_nonneg ha (k := (statesOf net v).length) (List.length_pos_iff.2 (List.ne_nil_of_mem hs)) hcfg
  have hn : (0 : K) ≤ knownRowsWith net df₁ t.parents ps := Nat.cast_nonneg _
  have hsame : ¬ (Known net r ∧ t.parents.map r = ps.map some) →
      estimate a (statesOf net v) (t.parents.map fun u => (statesOf net u).length).prod (fun s => observed net df v t.parents s ps) s =
      estimate a (statesOf net v) (t.parents.map fun u => (statesOf net u).length).prod (fun s => observed net df₁ v t.parents s ps) s := by
    intro hno
    refine estimate_same (fun s _ => ?_) hs
    unfold observed
    rw [hrows.countP_eq, List.countP_cons, if_neg, add_zero]
    simp only [decide_eq_true_eq]
    rintro ⟨h1, -, h2⟩
    exact hno ⟨h1, h2⟩
  refine ⟨?_, hsame⟩
  by_cases hyes : Known net r ∧ t.parents.map r = ps.map some
  · have m₁ := estimate_counts ha hcfg (fun s => observed net df₁ v t.parents s ps) hs
    have m := estimate_counts ha hcfg (fun s => observed net df v t.parents s ps) hs
    have oN : knownRowsWith net df t.parents ps = knownRowsWith net df₁ t.parents ps + 1 := by
      unfold knownRowsWith
      rw [hrows.countP_eq, List.countP_cons, if_pos (by simpa using hyes)]
    have o : observed net df v t.parents s ps = observed net df₁ v t.parents s ps + if r v = some s then 1 else 0 := by
      unfold observed
      rw [hrows.countP_eq, List.countP_cons]
      congr 1
      simp [hyes.1, hyes.2]
    rw [observed_sum hks df₁ hv] at m₁
    rw [observed_sum hks df hv, oN, o] at m
    push_cast at m
    obtain ⟨p0, p1⟩ := estimate_range ha hcfg (fun s => observed net df₁ v t.parents s ps) hs
    generalize estimate a (statesOf net v) (t.parents.map fun u => (statesOf net u).length).prod
      (fun s => observed net df v t.parents s ps) s = p at *
    generalize estimate a (statesOf net v) (t.parents.map fun u => (statesOf net u).length).prod
      (fun s => observed net df₁ v t.parents s ps) s = p₁ at *
    generalize assumedRows a (statesOf net v).length (t.parents.map fun u => (statesOf net u).length).prod = w at *
    generalize (knownRowsWith net df₁ t.parents ps : K) = n at *
    have hd : 0 < n + w + 1 := by linarith
    rw [le_div_iff₀ hd, ← abs_of_pos hd, ← abs_mul]
    have : (p - p₁) * (n + w + 1) = (if r v = some s then 1 else 0) - p₁ := by linear_combination m - m₁
    rw [this, abs_le]
    split <;> constructor <;> linarith
  · rw [hsame hyes, sub_self, abs_zero]
    positivity

/-- **C159**, predictions: in a complete row in which both networks predict the same state, the network fitted to both data sets predicts
this state, too. -/
theorem pooled_predictions {int : ℕ → S} (hint : Injective int) {ns : List V} {E : List (V × V)}
    (hE : IsStructure ns E) {net net₁ net₂ : Net V S K} (hr : Reach int ns E net)
    (hne : ∀ v ∈ net.nodes, statesOf net v ≠ []) {h₀ h₁ h₂ : Heap V S} {ref₁ ref₂ ref₃ : ℕ} {df₁ df₂ df₃ : DF V S}
    (hdf₁ : h₀[ref₁]? = some df₁) (hdf₂ : h₀[ref₂]? = some df₂) (hdf₃ : h₀[ref₃]? = some df₃) (hcols₃ : ∀ v ∈ df₁.cols, v ∈ df₃.cols)
    (hrows : df₃.rows.Perm (df₁.rows ++ df₂.rows)) {a : FitArgs K} (hess : ∀ n, a.ess = some n → 0 < n)
    (hf₁ : fitCpds int net h₀ ref₁ a = (net₁, h₁, .ok ())) (hf₂ : fitCpds int net h₀ ref₂ a = (net₂, h₂, .ok ()))
    {v : V} (hv : v ∈ net.nodes) {h : Heap V S} {ref : ℕ} {df : DF V S} (hdf : h[ref]? = some df)
    (hcols : ∀ p, (p, v) ∈ E → p ∈ df.cols)
    (hk : ∀ r ∈ df.rows, ∀ p, (p, v) ∈ E → ∃ s ∈ statesOf net p, r p = some s)
    (oracle : DF V S → List ℕ) (predName : V → V) :
    ∃ net₃ h₃ h₁' h₂' h₃' out₁ out₂ out₃, fitCpds int net h₀ ref₃ a = (net₃, h₃, .ok ()) ∧
      predict oracle int predName net₁ h ref v = (h₁', .ok out₁) ∧ predict oracle int predName net₂ h ref v = (h₂', .ok out₂) ∧
      predict oracle int predName net₃ h ref v = (h₃', .ok out₃) ∧ out₁.rows.length = df.rows.length ∧
      List.Forall₂ (fun r₁₂ r₃ => r₁₂.1 (predName v) = r₁₂.2 (predName v) → r₃ (predName v) = r₁₂.1 (predName v))
        (out₁.rows.zip out₂.rows) out₃.rows := by
  obtain ⟨net₃, h₃, hf₃⟩ := fit_ok_again hE hr hdf₁ hdf₃ hcols₃ hf₁
  obtain ⟨tables, -, hkeys, -, h3⟩ := fit_entries hint hE hr hne hdf₁ hf₁
  have hv' := hv
  rw [← hkeys] at hv'
  obtain ⟨⟨v, t⟩, ht, rfl⟩ := List.mem_map.1 hv'
  obtain ⟨-, hp, -⟩ := h3 v t ht
  have hc : ∀ p ∈ t.parents, p ∈ df.cols := fun p hpp => hcols p ((hp.2 p).1 hpp)
  have hk' : ∀ r ∈ df.rows, ∀ p ∈ t.parents, ∃ s ∈ statesOf net p, r p = some s := fun r hrr p hpp => hk r hrr p ((hp.2 p).1 hpp)
  obtain ⟨h₁', out₁, e1, f1⟩ := predict_most_frequent hint hE hr hne hdf₁ hess hf₁ hv hp hdf hc hk' oracle predName
  obtain ⟨h₂', out₂, e2, f2⟩ := predict_most_frequent hint hE hr hne hdf₂ hess hf₂ hv hp hdf hc hk' oracle predName
  obtain ⟨h₃', out₃, e3, f3⟩ := predict_most_frequent hint hE hr hne hdf₃ hess hf₃ hv hp hdf hc hk' oracle predName
  refine ⟨net₃, h₃, h₁', h₂', h₃', out₁, out₂, out₃, hf₃, e1, e2, e3, f1.length_eq.symm, ?_⟩
  clear hdf hk hk' hc hcols e1 e2 e3
  have o : ∀ s ps, observed net df₃ v t.parents s ps = observed net df₁ v t.parents s ps + observed net df₂ v t.parents s ps := by
    intro s ps
    unfold observed
    rw [hrows.countP_eq, List.countP_append]
  generalize df.rows = rows at *
  generalize out₁.rows = l₁ at *
  generalize out₂.rows = l₂ at *
  generalize out₃.rows = l₃ at *
  induction f1 generalizing l₂ l₃ with
  | nil => cases f2; cases f3; exact .nil
  | cons g1 _ ih =>
    cases f2 with
    | cons g2 f2 =>
      cases f3 with
      | cons g3 f3 =>
        refine .cons (fun heq => ?_) (ih _ f2 _ f3)
        obtain ⟨s₁, hs₁, k1, ps, c1, m1⟩ := g1
        obtain ⟨s₂, hs₂, k2, ps₂, c2, m2⟩ := g2
        obtain ⟨s₃, hs₃, k3, ps₃, c3, m3⟩ := g3
        obtain rfl : ps = ps₂ := List.map_injective_iff.2 (Option.some_injective S) (c1.symm.trans c2)
        obtain rfl : ps = ps₃ := List.map_injective_iff.2 (Option.some_injective S) (c1.symm.trans c3)
        dsimp only at heq ⊢
        rw [k1, k2] at heq
        cases heq
        rw [k1, k3]
        simp only [o] at m3
        rcases lt_trichotomy s₃ s₁ with hlt | rfl | hlt
        · have i1 := (m1 s₃ hs₃).2 hlt
          have i2 := (m2 s₃ hs₃).2 hlt
          have i3 := (m3 s₁ hs₁).1
          dsimp only at i1 i2 i3
          omega
        · rfl
        · have i1 := (m1 s₃ hs₃).1
          have i2 := (m2 s₃ hs₃).1
          have i3 := (m3 s₁ hs₁).2 hlt
          dsimp only at i1 i2 i3
          omega

end

end Verif.Network
