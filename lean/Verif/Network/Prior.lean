import Verif.Network.Counts
import Mathlib.Tactic.LinearCombination

/-!
# C158: what the prior of the Bayesian estimator does
-/

namespace Verif.Network

open Function

section
variable {V S K : Type} [LinearOrder V] [LinearOrder S] [Field K] [LinearOrder K] [IsStrictOrderedRing K]

/-! ### Specification -/

/-- Specification: the number of rows in which every node of the network has a known state and the nodes `parents` have the states `ps`. -/
def knownRowsWith (net : Net V S K) (df : DF V S) (parents : List V) (ps : List S) : ℕ :=
  df.rows.countP fun r => Known net r ∧ parents.map r = ps.map some

/-- Specification: the number of rows the prior is worth, for one combination of states of the parents; `k` is the number of states of the node
and `cfgs` that of the combinations. -/
def priorRows (a : FitArgs K) (k cfgs : ℕ) : K := if a.prior = some "K2" then k else a.ess.getD 0 / cfgs

/-- Specification: the Bayesian estimator, with a prior it knows and, for BDeu, a positive equivalent sample size. -/
def Bayesian (a : FitArgs K) : Prop :=
  a.method = "BayesianEstimator" ∧ (a.prior = some "K2" ∨ a.prior = some "BDeu" ∧ ∃ n, a.ess = some n ∧ 0 < n)

/-! ### Estimates -/

theorem sum_indicator {ks : List S} (hks : ks.Nodup) {s₀ : S} (hs : s₀ ∈ ks) : (ks.map fun s => if s₀ = s then 1 else 0).sum = 1 := by
  induction ks with
  | nil => simp at hs
  | cons k ks ih =>
    rw [List.nodup_cons] at hks
    rw [List.map_cons, List.sum_cons]
    by_cases hk : s₀ = k
    · subst hk
      have : ∀ x ∈ ks.map fun s => if s₀ = s then 1 else 0, x = 0 := by
        intro x hx
        obtain ⟨s, hs', rfl⟩ := List.mem_map.1 hx
        rw [if_neg]
        rintro rfl
        exact hks.1 hs'
      rw [if_pos rfl, List.sum_eq_zero this, add_zero]
    · rw [if_neg hk, ih hks.2 ((List.mem_cons.1 hs).resolve_left hk)]

/-- Every row in which the parents have the given states counts for one state of the node. -/
theorem observed_sum {net : Net V S K} (hks : ∀ v, (statesOf net v).Nodup) (df : DF V S) {v : V} (hv : v ∈ net.nodes) (parents : List V) (ps : List S) :
    ((statesOf net v).map fun s => observed net df v parents s ps).sum = knownRowsWith net df parents ps := by
  unfold observed knownRowsWith
  induction df.rows with
  | nil => simp
  | cons r rows ih =>
    simp only [List.countP_cons, List.sum_map_add, ih]
    congr 1
    by_cases hk : Known net r ∧ parents.map r = ps.map some
    · obtain ⟨s₀, hs₀, hr⟩ := hk.1 v hv
      have : (fun s => if decide (Known net r ∧ r v = some s ∧ parents.map r = ps.map some) = true then 1 else 0) =
          fun s => if s₀ = s then 1 else 0 := by
        funext s
        simp [hk.1, hk.2, hr]
      rw [this, sum_indicator (hks v) hs₀, if_pos (by simp only [decide_eq_true_eq]; exact hk)]
    · rw [if_neg (by simp only [decide_eq_true_eq]; exact hk), List.sum_eq_zero]
      intro x hx
      obtain ⟨s, -, rfl⟩ := List.mem_map.1 hx
      rw [if_neg]
      simp only [decide_eq_true_eq]
      rintro ⟨h1, -, h2⟩
      exact hk ⟨h1, h2⟩

theorem priorRows_pos {a : FitArgs K} (ha : Bayesian a) {k cfgs : ℕ} (hk : 0 < k) (hc : 0 < cfgs) : 0 < priorRows a k cfgs := by
  have hk' : (0 : K) < k := by exact_mod_cast hk
  have hc' : (0 : K) < cfgs := by exact_mod_cast hc
  unfold priorRows
  rcases ha.2 with h | ⟨h, n, hn, hn0⟩
  · rw [if_pos h]; exact hk'
  · rw [if_neg (by rw [h]; decide), hn]
    exact div_pos hn0 hc'

/-- A Bayesian estimate is the mean of the relative frequency and the uniform distribution, weighted with the numbers of rows. -/
theorem estimate_bayesian {a a₀ : FitArgs K} (ha : Bayesian a) (ha₀ : a₀.method = "MaximumLikelihoodEstimator") {ks : List S} {cfgs : ℕ}
    (hc : 0 < cfgs) (N : S → ℕ) {s : S} (hs : s ∈ ks) :
    (((ks.map N).sum : ℕ) + priorRows a ks.length cfgs) * estimate a ks cfgs N s =
      ((ks.map N).sum : ℕ) * estimate a₀ ks cfgs N s + priorRows a ks.length cfgs * (1 / ks.length) := by
  have hk : 0 < ks.length := List.length_pos_iff.2 (List.ne_nil_of_mem hs)
  have hk' : (0 : K) < ks.length := by exact_mod_cast hk
  have hc' : (0 : K) < cfgs := by exact_mod_cast hc
  have hw := priorRows_pos ha hk hc
  have hle : N s ≤ (ks.map N).sum := List.single_le_sum (by simp) _ (List.mem_map_of_mem hs)
  have hml : (((ks.map N).sum : ℕ) : K) * estimate a₀ ks cfgs N s = N s := by
    unfold estimate
    dsimp only
    rw [if_pos ha₀]
    by_cases h0 : (ks.map N).sum = 0
    · rw [if_pos h0, h0]
      have : N s = 0 := by omega
      simp [this]
    · rw [if_neg h0]
      have : (((ks.map N).sum : ℕ) : K) ≠ 0 := by exact_mod_cast h0
      rw [mul_div_cancel₀ _ this]
  have hT : (0 : K) ≤ ((ks.map N).sum : ℕ) := Nat.cast_nonneg _
  rw [hml]
  have hm : a.method ≠ "MaximumLikelihoodEstimator" := by rw [ha.1]; decide
  unfold estimate priorRows at *
  dsimp only
  rw [if_neg hm]
  by_cases h2 : a.prior = some "K2"
  · rw [if_pos h2] at hw ⊢
    rw [if_pos h2, mul_div_cancel₀ _ (by positivity), mul_one_div, div_self hk'.ne']
  · rw [if_neg h2] at hw ⊢
    rw [if_neg h2]
    have e : (ks.length : K) * (a.ess.getD 0 / (ks.length * cfgs)) = a.ess.getD 0 / cfgs := by field_simp
    rw [e, mul_div_cancel₀ _ (by positivity)]
    congr 1
    field_simp

/-! ### Tables -/

theorem prod_pos_of_states {net : Net V S K} (hne : ∀ v ∈ net.nodes, statesOf net v ≠ []) {l : List V} (hl : ∀ p ∈ l, p ∈ net.nodes) :
    0 < (l.map fun p => (statesOf net p).length).prod := by
  induction l with
  | nil => simp
  | cons p l ih =>
    rw [List.map_cons, List.prod_cons]
    exact Nat.mul_pos (List.length_pos_iff.2 (hne p (hl p List.mem_cons_self))) (ih fun p hp => hl p (List.mem_cons_of_mem _ hp))

theorem weighted_mean {n w p q u : K} (hn : 0 ≤ n) (hw : 0 < w) (h : (n + w) * q = n * p + w * u) :
    q - p = w / (n + w) * (u - p) ∧ q - u = n / (n + w) * (p - u) := by
  have hd : n + w ≠ 0 := by positivity
  constructor
  · field_simp
    linear_combination h
  · field_simp
    linear_combination h

/-- **C158**, the tables: fit a network twice to the same data, with maximum likelihood and with the Bayesian estimator.  If the first succeeds,
so does the second, and each entry `q` of its tables is the mean of the entry `p` of the first and of the uniform probability `1 / k`: `p` counts
as many times as there are rows with the states of the parents, `1 / k` counts as many rows as the prior is worth.  So `q` is positive, and
the difference is at most the share of the prior. -/
theorem prior_effect {int : ℕ → S} (hint : Injective int) {ns : List V} {E : List (V × V)} (hE : IsStructure ns E) {net net₀ : Net V S K}
    (hr : Reach int ns E net) (hne : ∀ v ∈ net.nodes, statesOf net v ≠ []) {h h₀ : Heap V S} {ref : ℕ} {df : DF V S} (hdf : h[ref]? = some df)
    {a₀ a : FitArgs K} (ha₀ : a₀.method = "MaximumLikelihoodEstimator") (ha : Bayesian a)
    (hf₀ : fitCpds int net h ref a₀ = (net₀, h₀, .ok ())) :
    ∃ net' h' tables₀ tables, fitCpds int net h ref a = (net', h', .ok ()) ∧ cpds net₀ = .ok tables₀ ∧ cpds net' = .ok tables ∧
      tables₀.map Prod.fst = net.nodes ∧ tables.map Prod.fst = net.nodes ∧
      ∀ v t₀ t, (v, t₀) ∈ tables₀ → (v, t) ∈ tables → t.parents = t₀.parents ∧
        ∀ s ∈ statesOf net v, ∀ ps, IsConfig net t.parents ps → ∃ p q, t₀.entry s ps = some p ∧ t.entry s ps = some q ∧
          let n : K := knownRowsWith net df t.parents ps
          let w : K := priorRows a (statesOf net v).length (t.parents.map fun u => (statesOf net u).length).prod
          (n + w) * q = n * p + w * (1 / (statesOf net v).length) ∧ 0 < w ∧ 0 < q ∧ |q - p| ≤ w / (n + w) := by
  have hw := hr.wf hE
  have hokf₀ : (fitCpds int net h ref a₀).2.2 = .ok () := by rw [hf₀]
  rw [fit_ok_iff hE hr hdf] at hokf₀
  have hokf : (fitCpds int net h ref a).2.2 = .ok () := by
    rw [fit_ok_iff hE hr hdf]
    refine ⟨hokf₀.1, hokf₀.2.1, Or.inr ⟨ha.1, ha.2.imp id ?_⟩⟩
    rintro ⟨h1, n, h2, -⟩
    exact ⟨h1, by rw [h2]; simp⟩
  have hf : fitCpds int net h ref a = ((fitCpds int net h ref a).1, (fitCpds int net h ref a).2.1, .ok ()) := by rw [← hokf]
  obtain ⟨-, -, -, tables₀, hc₀, hk₀, f₀⟩ := fit_cpds_correct hint hE hr hne hdf hf₀
  obtain ⟨-, -, -, tables, hc, hk, f⟩ := fit_cpds_correct hint hE hr hne hdf hf
  refine ⟨_, _, tables₀, tables, hf, hc₀, hc, hk₀, hk, fun v t₀ t ht₀ ht => ?_⟩
  obtain ⟨-, hp₀, -, -, e₀⟩ := f₀ v t₀ ht₀
  obtain ⟨-, hp, -, -, e⟩ := f v t ht
  have hpe : t.parents = t₀.parents := parentList_unique hp hp₀
  refine ⟨hpe, fun s hs ps hps => ⟨_, _, e₀ s hs ps (hpe ▸ hps), e s hs ps hps, ?_⟩⟩
  have hv : v ∈ net.nodes := hk ▸ List.mem_map_of_mem (f := Prod.fst) ht
  obtain ⟨states, -, -, hst, -⟩ := fitCpds_ok hw hf
  have hks : ∀ v, (statesOf net v).Nodup := fun v => by
    rw [statesOf_eq hst]
    exact keysOf_nodup (hw.encWF hst) v
  have hcfg : 0 < (t.parents.map fun u => (statesOf net u).length).prod := by
    refine prod_pos_of_states hne fun p hpp => ?_
    rw [hw.nodes]
    exact mem_nodesOfEdges.2 ⟨(p, v), (hp.2 p).1 hpp, Or.inl rfl⟩
  intro n w
  have hmain := estimate_bayesian ha ha₀ (ks := statesOf net v) hcfg (fun s => observed net df v t.parents s ps) hs
  rw [observed_sum hks df hv] at hmain
  rw [← hpe]
  have hlen : 0 < (statesOf net v).length := List.length_pos_iff.2 (hne v hv)
  have hw0 : 0 < w := priorRows_pos ha hlen hcfg
  have hn0 : 0 ≤ n := Nat.cast_nonneg _
  have hk1 : (1 : K) ≤ (statesOf net v).length := by exact_mod_cast hlen
  obtain ⟨p0, psum⟩ := estimate_prob (K := K) (a := { a₀ with ess := none }) (fun n hn => by cases hn) (Or.inl ha₀) (hne v hv) hcfg
    (fun s => observed net df v t.parents s ps)
  have hsame : ∀ s, estimate { a₀ with ess := (none : Option K) } (statesOf net v) (t.parents.map fun u => (statesOf net u).length).prod
      (fun s => observed net df v t.parents s ps) s = estimate a₀ (statesOf net v) (t.parents.map fun u => (statesOf net u).length).prod
      (fun s => observed net df v t.parents s ps) s := by
    intro s
    unfold estimate
    dsimp only
    rw [if_pos ha₀, if_pos ha₀]
  rw [funext hsame] at psum
  simp only [hsame] at p0
  have p1 := List.single_le_sum (l := (statesOf net v).map (estimate a₀ (statesOf net v) (t.parents.map fun u => (statesOf net u).length).prod
      (fun s => observed net df v t.parents s ps))) (by
    intro x hx
    obtain ⟨s, -, rfl⟩ := List.mem_map.1 hx
    exact p0 s) _ (List.mem_map_of_mem hs)
  rw [psum] at p1
  have hd : 0 < n + w := by linarith
  have hu0 : (0 : K) < 1 / (statesOf net v).length := by
    have : (0 : K) < (statesOf net v).length := by linarith
    positivity
  have hu1 : (1 : K) / (statesOf net v).length ≤ 1 := by
    rw [div_le_one (by linarith)]
    exact hk1
  refine ⟨hmain, hw0, ?_, ?_⟩
  · have : 0 < (n + w) * estimate a (statesOf net v) (t.parents.map fun u => (statesOf net u).length).prod
        (fun s => observed net df v t.parents s ps) s := by
      rw [hmain]
      have h1 := mul_nonneg hn0 (p0 s)
      have h2 := mul_pos hw0 hu0
      linarith
    exact (pos_iff_pos_of_mul_pos this).1 hd
  · rw [(weighted_mean hn0 hw0 hmain).1, abs_mul, abs_of_pos (div_pos hw0 hd)]
    refine mul_le_of_le_one_right (div_pos hw0 hd).le ?_
    rw [abs_le]
    constructor <;> linarith [p0 s]

/-- **C158**, the equivalent sample size: with a larger one the entries are closer to the uniform distribution and further from those fitted with
maximum likelihood. -/
theorem prior_strength {int : ℕ → S} (hint : Injective int) {ns : List V} {E : List (V × V)} (hE : IsStructure ns E) {net net₀ : Net V S K}
    (hr : Reach int ns E net) (hne : ∀ v ∈ net.nodes, statesOf net v ≠ []) {h h₀ : Heap V S} {ref : ℕ} {df : DF V S} (hdf : h[ref]? = some df)
    {a₀ : FitArgs K} (ha₀ : a₀.method = "MaximumLikelihoodEstimator") (hf₀ : fitCpds int net h ref a₀ = (net₀, h₀, .ok ()))
    {e₁ e₂ : K} (he₁ : 0 < e₁) (he : e₁ ≤ e₂) :
    ∃ net₁ net₂ h₁ h₂ tables₀ tables₁ tables₂, fitCpds int net h ref ⟨"BayesianEstimator", some "BDeu", some e₁⟩ = (net₁, h₁, .ok ()) ∧
      fitCpds int net h ref ⟨"BayesianEstimator", some "BDeu", some e₂⟩ = (net₂, h₂, .ok ()) ∧
      cpds net₀ = .ok tables₀ ∧ cpds net₁ = .ok tables₁ ∧ cpds net₂ = .ok tables₂ ∧
      ∀ v t₀ t₁ t₂, (v, t₀) ∈ tables₀ → (v, t₁) ∈ tables₁ → (v, t₂) ∈ tables₂ →
        ∀ s ∈ statesOf net v, ∀ ps, IsConfig net t₀.parents ps → ∃ p q₁ q₂, t₀.entry s ps = some p ∧ t₁.entry s ps = some q₁ ∧
          t₂.entry s ps = some q₂ ∧ |q₂ - 1 / (statesOf net v).length| ≤ |q₁ - 1 / (statesOf net v).length| ∧ |q₁ - p| ≤ |q₂ - p| := by
  have he₂ : 0 < e₂ := he₁.trans_le he
  obtain ⟨net₁, h₁, tables₀, tables₁, hf₁, hc₀, hc₁, hk₀, hk₁, f₁⟩ := prior_effect hint hE hr hne hdf ha₀
    (a := ⟨"BayesianEstimator", some "BDeu", some e₁⟩) ⟨rfl, Or.inr ⟨rfl, e₁, rfl, he₁⟩⟩ hf₀
  obtain ⟨net₂, h₂, tables₀', tables₂, hf₂, hc₀', hc₂, -, -, f₂⟩ := prior_effect hint hE hr hne hdf ha₀
    (a := ⟨"BayesianEstimator", some "BDeu", some e₂⟩) ⟨rfl, Or.inr ⟨rfl, e₂, rfl, he₂⟩⟩ hf₀
  rw [hc₀] at hc₀'
  cases hc₀'
  refine ⟨net₁, net₂, h₁, h₂, tables₀, tables₁, tables₂, hf₁, hf₂, hc₀, hc₁, hc₂, fun v t₀ t₁ t₂ ht₀ ht₁ ht₂ s hs ps hps => ?_⟩
  obtain ⟨hp₁, g₁⟩ := f₁ v t₀ t₁ ht₀ ht₁
  obtain ⟨hp₂, g₂⟩ := f₂ v t₀ t₂ ht₀ ht₂
  obtain ⟨p, q₁, k0, k1, m1, w1, -, -⟩ := g₁ s hs ps (hp₁ ▸ hps)
  obtain ⟨p', q₂, k0', k2, m2, w2, -, -⟩ := g₂ s hs ps (hp₂ ▸ hps)
  rw [k0] at k0'
  cases k0'
  refine ⟨p, q₁, q₂, k0, k1, k2, ?_⟩
  rw [hp₁] at m1 w1
  rw [hp₂] at m2 w2
  have hww : priorRows (⟨"BayesianEstimator", some "BDeu", some e₁⟩ : FitArgs K) (statesOf net v).length
        (t₀.parents.map fun u => (statesOf net u).length).prod ≤
      priorRows (⟨"BayesianEstimator", some "BDeu", some e₂⟩ : FitArgs K) (statesOf net v).length
        (t₀.parents.map fun u => (statesOf net u).length).prod := by
    unfold priorRows
    rw [if_neg (by simp), if_neg (by simp)]
    exact div_le_div_of_nonneg_right he (Nat.cast_nonneg _)
  generalize priorRows (⟨"BayesianEstimator", some "BDeu", some e₁⟩ : FitArgs K) (statesOf net v).length
        (t₀.parents.map fun u => (statesOf net u).length).prod = w₁ at *
  generalize priorRows (⟨"BayesianEstimator", some "BDeu", some e₂⟩ : FitArgs K) (statesOf net v).length
        (t₀.parents.map fun u => (statesOf net u).length).prod = w₂ at *
  have hn0 : (0 : K) ≤ knownRowsWith net df t₀.parents ps := Nat.cast_nonneg _
  generalize (knownRowsWith net df t₀.parents ps : K) = n at *
  obtain ⟨x1, y1⟩ := weighted_mean hn0 w1 m1
  obtain ⟨x2, y2⟩ := weighted_mean hn0 w2 m2
  have d1 : 0 < n + w₁ := by linarith
  have d2 : 0 < n + w₂ := by linarith
  rw [x1, x2, y1, y2, abs_mul, abs_mul, abs_mul, abs_mul, abs_of_nonneg (div_nonneg hn0 d1.le), abs_of_nonneg (div_nonneg hn0 d2.le),
    abs_of_pos (div_pos w1 d1), abs_of_pos (div_pos w2 d2)]
  refine ⟨mul_le_mul_of_nonneg_right ?_ (abs_nonneg _), mul_le_mul_of_nonneg_right ?_ (abs_nonneg _)⟩
  · exact div_le_div_of_nonneg_left hn0 d1 (by linarith)
  · rw [div_le_div_iff₀ d1 d2]
    nlinarith

/-! ### Predictions -/

theorem forall₂_join {α β γ : Type} {R : α → β → Prop} {Q : α → γ → Prop} {P : β → γ → Prop} {l : List α} {m : List β} {m' : List γ}
    (h : List.Forall₂ R l m) (h' : List.Forall₂ Q l m') (hP : ∀ x y z, R x y → Q x z → P y z) : List.Forall₂ P m m' := by
  induction h generalizing m' with
  | nil => cases h'; exact .nil
  | cons h1 _ ih =>
    cases h' with
    | cons h2 h3 => exact .cons (hP _ _ _ h1 h2) (ih h3)

/-- **C158**, the predictions: fit a network twice to the same data, with any methods, priors and sizes.  In complete rows both predict the same
states. -/
theorem prior_predictions {int : ℕ → S} (hint : Injective int) {ns : List V} {E : List (V × V)}
    (hE : IsStructure ns E) {net net₁ net₂ : Net V S K} (hr : Reach int ns E net)
    (hne : ∀ v ∈ net.nodes, statesOf net v ≠ []) {h₀ h₁ h₂ : Heap V S} {ref₀ : ℕ} {train : DF V S} (htrain : h₀[ref₀]? = some train)
    {a₁ a₂ : FitArgs K} (hess₁ : ∀ n, a₁.ess = some n → 0 < n) (hess₂ : ∀ n, a₂.ess = some n → 0 < n)
    (hf₁ : fitCpds int net h₀ ref₀ a₁ = (net₁, h₁, .ok ())) (hf₂ : fitCpds int net h₀ ref₀ a₂ = (net₂, h₂, .ok ()))
    {v : V} (hv : v ∈ net.nodes) {h : Heap V S} {ref : ℕ} {df : DF V S} (hdf : h[ref]? = some df)
    (hcols : ∀ p, (p, v) ∈ E → p ∈ df.cols)
    (hk : ∀ r ∈ df.rows, ∀ p, (p, v) ∈ E → ∃ s ∈ statesOf net p, r p = some s)
    (oracle : DF V S → List ℕ) (predName : V → V) :
    ∃ h' h'' out₁ out₂, predict oracle int predName net₁ h ref v = (h', .ok out₁) ∧
      predict oracle int predName net₂ h ref v = (h'', .ok out₂) ∧
      List.Forall₂ (fun r₁ r₂ => r₁ (predName v) = r₂ (predName v)) out₁.rows out₂.rows := by
  obtain ⟨-, -, -, tables, -, hkeys, h3⟩ := fit_cpds_correct hint hE hr hne htrain hf₁
  have hv' := hv
  rw [← hkeys] at hv'
  obtain ⟨⟨v, t⟩, ht, rfl⟩ := List.mem_map.1 hv'
  obtain ⟨-, hp, -⟩ := h3 v t ht
  obtain ⟨h', out₁, e1, f1⟩ := predict_most_frequent hint hE hr hne htrain hess₁ hf₁ hv hp hdf (fun p hpp => hcols p ((hp.2 p).1 hpp))
    (fun r hrr p hpp => hk r hrr p ((hp.2 p).1 hpp)) oracle predName
  obtain ⟨h'', out₂, e2, f2⟩ := predict_most_frequent hint hE hr hne htrain hess₂ hf₂ hv hp hdf (fun p hpp => hcols p ((hp.2 p).1 hpp))
    (fun r hrr p hpp => hk r hrr p ((hp.2 p).1 hpp)) oracle predName
  refine ⟨h', h'', out₁, out₂, e1, e2, forall₂_join f1 f2 ?_⟩
  rintro r r₁ r₂ ⟨s, hs, k1, ps, k2, k3⟩ ⟨s', hs', k1', ps', k2', k3'⟩
  obtain rfl : ps = ps' := List.map_injective_iff.2 (Option.some_injective S) (k2.symm.trans k2')
  rw [k1, k1']
  rcases lt_trichotomy s s' with hlt | rfl | hlt
  · exact absurd ((k3' s hs).2 hlt) (not_lt.2 (k3 s' hs').1)
  · rfl
  · exact absurd ((k3 s' hs').2 hlt) (not_lt.2 (k3' s hs).1)

end

end Verif.Network
