import Verif.Network.PropsPredict
import Verif.Network.Likelihood
import Verif.Network.Witness
import Verif.BBN.LocalMarkov

/-!
# C105: predictions agree with exact inference

`BayesianNetwork.predict_probability` and `predict` look the states of the parents up in a table.  An `InferenceEngine` built from the same
network gives the same answer, when it is given the states of the parents as evidence.
-/

namespace Verif.Network

open Verif.BBN (lookup_mem lookup_of_mem_nodup lookup_isSome_iff Frame Fitted netNodes cpdsOf domOf
  IsNetwork NodesWF link_arrows arrows Gives Agrees)
open Function

section
variable {V S K : Type} [LinearOrder V] [LinearOrder S] [Field K] [LinearOrder K]
  [IsStrictOrderedRing K]

omit [Field K] [LinearOrder K] [IsStrictOrderedRing K] in
theorem zip_agrees {l : List V} (hl : l.Nodup) {ps : List S} (hlen : ps.length = l.length) {d : S} :
    ∃ z : V → S, Agrees (l.zip ps) z ∧ l.map z = ps := by
  induction l generalizing ps with
  | nil =>
    rw [List.length_nil, List.length_eq_zero_iff] at hlen
    exact ⟨fun _ => d, by simp [Agrees], by simp [hlen]⟩
  | cons v l ih =>
    cases ps with
    | nil => simp at hlen
    | cons s ps =>
      rw [List.nodup_cons] at hl
      obtain ⟨z, h1, h2⟩ := ih hl.2 (ps := ps) (by simpa using hlen)
      have hmap : l.map (update z v s) = ps := by
        rw [← h2]
        apply List.map_congr_left
        intro a ha
        rw [update_of_ne]
        rintro rfl
        exact hl.1 ha
      refine ⟨update z v s, ?_, by rw [List.map_cons, update_self, hmap]⟩
      intro q hq
      rw [List.zip_cons_cons, List.mem_cons] at hq
      rcases hq with rfl | hq
      · exact update_self ..
      · rw [update_of_ne]
        · exact h1 q hq
        · intro h
          exact hl.1 (h ▸ (List.of_mem_zip hq).1)

/-- **C105**: the entries of a column of a fitted CPD are the answer of the inference engine to the query with the states of the
parents as evidence. -/
theorem entry_is_query {int : ℕ → S} (hint : Injective int) {ns : List V} {E : List (V × V)}
    (hE : IsStructure ns E) (hEne : E ≠ []) {net net' : Net V S K} (hr : Reach int ns E net)
    (hne : ∀ v ∈ net.nodes, statesOf net v ≠ []) {h h' : Heap V S} {ref : ℕ} {df : DF V S}
    (hdf : h[ref]? = some df) {a : FitArgs K} (hess : ∀ n, a.ess = some n → 0 < n)
    (hf : fitCpds int net h ref a = (net', h', .ok ()))
    {par : V → List V} (hpar : ∀ v ∈ net.nodes, IsParentList E v (par v))
    {tables : List (V × Table V S K)} (hc : cpds net' = .ok tables)
    {nd : BBN.Nondet V} (hnd : nd.Legal) {okName : V → Bool} {e : BBN.Engine V S K}
    (he : BBN.Engine.create okName (framesOf tables) = .ok e)
    (hok : ∀ v ∈ net.nodes, okName v = true)
    {x₀ : V → S} (hx₀ : ∀ v ∈ net.nodes, x₀ v ∈ statesOf net v)
    {v : V} {t : Table V S K} (ht : (v, t) ∈ tables) {ps : List S} (hps : IsConfig net t.parents ps)
    (hpos : 0 < dataMass a net df par x₀ (Agrees (t.parents.zip ps))) :
    ∃ ans, e.query nd (t.parents.zip ps) = .ok ans ∧
      ∀ s ∈ statesOf net v, ∃ p, t.entry s ps = some p ∧ Gives ans v s p := by
  have hw := hr.wf hE
  obtain ⟨tables', hc', h2, hfit⟩ := fitted_is_network hint hE hEne hr hne hess hf
  rw [hc] at hc'
  cases hc'
  obtain ⟨-, -, -, tables', hc', -, h3⟩ := fit_cpds_correct hint hE hr hne hdf hf
  rw [hc] at hc'
  cases hc'
  obtain ⟨hdom, hmass⟩ := massOf_framesOf hint hE hr hne hdf hf hpar hc
  have hbn : (framesOf tables).map Prod.fst = net.nodes := by
    rw [← h2, framesOf, List.map_map]; rfl
  obtain ⟨e', he', hinv, hcp⟩ := BBN.Engine.create_ok hfit (okName := okName) (by
    intro q hq
    apply hok
    rw [← hbn]
    exact List.mem_map_of_mem hq)
  rw [he] at he'
  cases he'
  obtain ⟨-, hp, -, -, hentry⟩ := h3 v t ht
  have hv : v ∈ net.nodes := by rw [← h2]; exact List.mem_map_of_mem ht
  have hpn : ∀ p ∈ t.parents, p ∈ net.nodes := by
    intro p hpp
    rw [hw.nodes]
    exact mem_nodesOfEdges.2 ⟨_, (hp.2 p).1 hpp, Or.inl rfl⟩
  have hlen : ps.length = t.parents.length := List.Forall₂.length_eq hps
  have hpnd : t.parents.Nodup := hp.1.imp fun h => ne_of_lt h
  have hfst : (t.parents.zip ps).map Prod.fst = t.parents := List.map_fst_zip (by omega)
  obtain ⟨z, hz1, hz2⟩ := zip_agrees hpnd hlen (d := x₀ v)
  have hcm : (v, (⟨t.index.toFinset, t.parents, fun s ps => (t.entry s ps).getD 0⟩ : BBN.Cpd V S K)) ∈ e.cpds := by
    rw [hcp]
    exact List.mem_map.2 ⟨_, List.mem_map.2 ⟨(v, t), ht, rfl⟩, rfl⟩
  have hac := hfit.acyclic
  obtain ⟨ans, h4, h5⟩ := BBN.query_local hnd hfit hinv (by rw [hcp]; exact hfit.connected) (x₀ := x₀)
    (by
      rw [hbn]
      intro u hu
      rw [hdom u hu]
      exact hx₀ u hu)
    (ev := t.parents.zip ps) (by rw [hfst]; exact hpnd)
    (by
      intro q hq
      obtain ⟨i, hi, rfl⟩ := List.getElem_of_mem hq
      rw [List.length_zip] at hi
      rw [List.getElem_zip, hbn]
      have hm : t.parents[i] ∈ net.nodes := hpn _ (List.getElem_mem _)
      refine ⟨hm, ?_⟩
      rw [hdom _ hm]
      exact (List.forall₂_iff_get.1 hps).2 i (by omega) (by omega))
    (by rw [hcp, hmass]; exact hpos) hcm (by
      intro p hpp
      rw [hfst]
      exact hpp)
    (by
      rw [hfst, hcp]
      intro u hu hreach
      apply hac v
      refine Relation.TransGen.tail' hreach ?_
      refine link_arrows.2 ⟨_, mem_netNodes_framesOf.2 ⟨(v, t), ht, rfl⟩, rfl, List.mem_cons_of_mem _ hu, ?_⟩
      rintro rfl
      exact hw.acyclic u (.single ((hp.2 u).1 hu))) hz1
  refine ⟨ans, h4, fun s hs => ⟨_, hentry s hs ps hps, ?_⟩⟩
  have := h5 s (by rw [hdom v hv]; exact hs)
  dsimp only at this
  rw [hz2, hentry s hs ps hps, Option.getD_some] at this
  exact this

/-- **C105**: with complete data, the columns returned by `predict_probability` hold, row by row, the answer of an inference engine built from
the same network to the query with the states of the parents as evidence (if the evidence is possible). -/
theorem predict_probability_is_query {int : ℕ → S} (hint : Injective int) {ns : List V}
    {E : List (V × V)} (hE : IsStructure ns E) (hEne : E ≠ []) {net net' : Net V S K} (hr : Reach int ns E net)
    (hne : ∀ v ∈ net.nodes, statesOf net v ≠ []) {h₀ h₁ : Heap V S} {ref₀ : ℕ} {df₀ : DF V S} (hdf₀ : h₀[ref₀]? = some df₀)
    {a : FitArgs K} (hess : ∀ n, a.ess = some n → 0 < n)
    (hf : fitCpds int net h₀ ref₀ a = (net', h₁, .ok ()))
    {par : V → List V} (hpar : ∀ v ∈ net.nodes, IsParentList E v (par v))
    {tables : List (V × Table V S K)} (hc : cpds net' = .ok tables)
    {nd : BBN.Nondet V} (hnd : nd.Legal) {okName : V → Bool} {e : BBN.Engine V S K}
    (he : BBN.Engine.create okName (framesOf tables) = .ok e)
    (hok : ∀ v ∈ net.nodes, okName v = true)
    {x₀ : V → S} (hx₀ : ∀ v ∈ net.nodes, x₀ v ∈ statesOf net v)
    {v : V} {t : Table V S K}
    (ht : (v, t) ∈ tables) {h : Heap V S} {ref : ℕ} {df : DF V S} (hdf : h[ref]? = some df)
    (hcols : ∀ p ∈ t.parents, p ∈ df.cols)
    (hk : ∀ r ∈ df.rows, ∀ p ∈ t.parents, ∃ s ∈ statesOf net p, r p = some s)
    (oracle : DF V S → DF V S) (pattern : V → Except Err (V → Bool)) (num : K → S) (fmt : V → S → V)
    (order : List S) (hord : order.Perm (statesOf net v))
    (hfmt : ∀ s ∈ statesOf net v, ∀ s' ∈ statesOf net v, fmt v s = fmt v s' → s = s')
    (hcoll : ∀ s ∈ statesOf net v, fmt v s ∉ t.parents) :
    ∃ h' out, predictProbability oracle pattern int num fmt order net' h ref v = (h', .ok out) ∧
      List.Forall₂ (fun r r' => ∃ ps, t.parents.map r = ps.map some ∧
        (0 < dataMass a net df₀ par x₀ (Agrees (t.parents.zip ps)) →
          ∃ ans, e.query nd (t.parents.zip ps) = .ok ans ∧
            ∀ s ∈ statesOf net v, ∃ p, Gives ans v s p ∧ r' (fmt v s) = some (num p)))
        df.rows out.rows := by
  obtain ⟨h', out, h1, -, -, h2⟩ := predict_probability_column_partial hint hE hr hne hf hc ht hdf hcols hk oracle pattern num fmt
    order hord hfmt hcoll
  refine ⟨h', out, h1, ((List.forall₂_and_left df.rows _).2 ⟨hk, h2⟩).imp ?_⟩
  rintro r r' ⟨hkr, ps, hps, hcol⟩
  refine ⟨ps, hps, fun hpos => ?_⟩
  have hcfg := row_config hkr
  have hpseq : ps = t.parents.filterMap r := by
    apply List.map_injective_iff.2 (Option.some_injective S)
    exact hps.symm.trans hcfg.1
  obtain ⟨ans, h3, h4⟩ := entry_is_query hint hE hEne hr hne hdf₀ hess hf hpar hc hnd he hok hx₀ ht (hpseq ▸ hcfg.2) hpos
  refine ⟨ans, h3, fun s hs => ?_⟩
  obtain ⟨p, h5, h6⟩ := h4 s hs
  obtain ⟨x, h7, h8⟩ := hcol s hs
  rw [h5] at h7
  cases h7
  exact ⟨p, h6, h8⟩

/-- **C105**: with complete data, `predict` returns in each row a state that an inference engine built from the same network finds most
probable, given the states of the parents as evidence; the smallest such state if there are several. -/
theorem predict_is_query_argmax {int : ℕ → S} (hint : Injective int) {ns : List V}
    {E : List (V × V)} (hE : IsStructure ns E) (hEne : E ≠ []) {net net' : Net V S K} (hr : Reach int ns E net)
    (hne : ∀ v ∈ net.nodes, statesOf net v ≠ []) {h₀ h₁ : Heap V S} {ref₀ : ℕ} {df₀ : DF V S} (hdf₀ : h₀[ref₀]? = some df₀)
    {a : FitArgs K} (hess : ∀ n, a.ess = some n → 0 < n)
    (hf : fitCpds int net h₀ ref₀ a = (net', h₁, .ok ()))
    {par : V → List V} (hpar : ∀ v ∈ net.nodes, IsParentList E v (par v))
    {tables : List (V × Table V S K)} (hc : cpds net' = .ok tables)
    {nd : BBN.Nondet V} (hnd : nd.Legal) {okName : V → Bool} {e : BBN.Engine V S K}
    (he : BBN.Engine.create okName (framesOf tables) = .ok e)
    (hok : ∀ v ∈ net.nodes, okName v = true)
    {x₀ : V → S} (hx₀ : ∀ v ∈ net.nodes, x₀ v ∈ statesOf net v)
    {v : V} {t : Table V S K}
    (ht : (v, t) ∈ tables) {h : Heap V S} {ref : ℕ} {df : DF V S} (hdf : h[ref]? = some df)
    (hcols : ∀ p ∈ t.parents, p ∈ df.cols)
    (hk : ∀ r ∈ df.rows, ∀ p ∈ t.parents, ∃ s ∈ statesOf net p, r p = some s)
    (oracle : DF V S → List ℕ) (predName : V → V) :
    ∃ h' out, predict oracle int predName net' h ref v = (h', .ok out) ∧
      List.Forall₂ (fun r r' => ∃ s ∈ statesOf net v, r' (predName v) = some s ∧ ∃ ps, t.parents.map r = ps.map some ∧
        (0 < dataMass a net df₀ par x₀ (Agrees (t.parents.zip ps)) →
          ∃ ans, e.query nd (t.parents.zip ps) = .ok ans ∧
            ∃ p, Gives ans v s p ∧ ∀ s' ∈ statesOf net v, ∃ q, Gives ans v s' q ∧ q ≤ p ∧ (s' < s → q < p)))
        df.rows out.rows := by
  obtain ⟨h', out, h1, -, -, h2⟩ := predict_argmax hint hE hr hne hf hc ht hdf hcols hk oracle predName
  refine ⟨h', out, h1, ((List.forall₂_and_left df.rows _).2 ⟨hk, h2⟩).imp ?_⟩
  rintro r r' ⟨hkr, s, hs, ps, x, hps, hr', hx, hmax⟩
  refine ⟨s, hs, hr', ps, hps, fun hpos => ?_⟩
  have hcfg := row_config hkr
  have hpseq : ps = t.parents.filterMap r := by
    apply List.map_injective_iff.2 (Option.some_injective S)
    exact hps.symm.trans hcfg.1
  obtain ⟨ans, h3, h4⟩ := entry_is_query hint hE hEne hr hne hdf₀ hess hf hpar hc hnd he hok hx₀ ht (hpseq ▸ hcfg.2) hpos
  obtain ⟨p, h5, h6⟩ := h4 s hs
  rw [h5] at hx
  cases hx
  refine ⟨ans, h3, _, h6, fun s' hs' => ?_⟩
  obtain ⟨q, h7, h8⟩ := h4 s' hs'
  obtain ⟨y, h9, h10⟩ := hmax s' hs'
  rw [h7] at h9
  cases h9
  exact ⟨q, h8, h10⟩

/-! ### When is the evidence possible? -/

omit [Field K] [LinearOrder K] [IsStrictOrderedRing K] [LinearOrder S] in
theorem mem_worlds {dom : V → List S} {vs : List V} {x₀ y : V → S} (h : ∀ v ∈ vs, y v ∈ dom v) :
    ∃ x ∈ BBN.worlds dom vs x₀, ∀ v ∈ vs, x v = y v := by
  induction vs generalizing x₀ with
  | nil => exact ⟨x₀, by simp [BBN.worlds], by simp⟩
  | cons u vs ih =>
    obtain ⟨x, h1, h2⟩ := ih (x₀ := update x₀ u (y u)) fun v hv => h v (List.mem_cons_of_mem _ hv)
    refine ⟨x, ?_, ?_⟩
    · rw [BBN.worlds, List.mem_flatMap]
      exact ⟨y u, h u List.mem_cons_self, h1⟩
    · intro v hv
      rcases List.mem_cons.1 hv with rfl | hv
      · by_cases hvv : v ∈ vs
        · exact h2 v hvv
        · rw [(BBN.worlds_valid h1 v).2 hvv, update_self]
      · exact h2 v hv

theorem estimate_nonneg {a : FitArgs K} (hess : ∀ n, a.ess = some n → 0 < n) (ks : List S) (cfgs : ℕ) (N : S → ℕ) (s : S) :
    0 ≤ estimate a ks cfgs N s := by
  have h0 : 0 ≤ a.ess.getD 0 := by
    cases h : a.ess with
    | none => simp
    | some n => simpa using (hess n h).le
  unfold estimate
  dsimp only
  split
  · split <;> positivity
  · split
    · positivity
    · positivity

/-- A state that was seen with these states of the parents has a positive estimate. -/
theorem estimate_pos_of_seen {a : FitArgs K} (hess : ∀ n, a.ess = some n → 0 < n) {ks : List S} (cfgs : ℕ) {N : S → ℕ} {s : S}
    (hs : s ∈ ks) (hN : 0 < N s) : 0 < estimate a ks cfgs N s := by
  have h0 : 0 ≤ a.ess.getD 0 := by
    cases h : a.ess with
    | none => simp
    | some n => simpa using (hess n h).le
  have hle : N s ≤ (ks.map N).sum := List.single_le_sum (by simp) _ (List.mem_map_of_mem hs)
  have hsum : 0 < (ks.map N).sum := by omega
  have hsK : (0 : K) < ((ks.map N).sum : ℕ) := by exact_mod_cast hsum
  have hNK : (0 : K) < N s := by exact_mod_cast hN
  unfold estimate
  dsimp only
  split
  · rw [if_neg hsum.ne']
    positivity
  · split
    · positivity
    · positivity

/-- A Bayesian estimate is always positive. -/
theorem estimate_pos_of_prior {a : FitArgs K} (hm : a.method ≠ "MaximumLikelihoodEstimator")
    (hp : a.prior = some "K2" ∨ ∃ n, a.ess = some n ∧ 0 < n) {ks : List S} {cfgs : ℕ} (hk : ks ≠ []) (hc : 0 < cfgs) (N : S → ℕ) (s : S) :
    0 < estimate a ks cfgs N s := by
  have hkK : (0 : K) < ks.length := by exact_mod_cast List.length_pos_iff.2 hk
  have hcK : (0 : K) < cfgs := by exact_mod_cast hc
  unfold estimate
  dsimp only
  rw [if_neg hm]
  split
  · positivity
  · rename_i hK
    rcases hp with hp | ⟨n, hn, hn0⟩
    · exact absurd hp hK
    · rw [hn, Option.getD_some]
      positivity

/-- Evidence is possible if some assignment of states that agrees with it has positive estimates throughout. -/
theorem dataMass_pos {a : FitArgs K} (hess : ∀ n, a.ess = some n → 0 < n) {net : Net V S K} {df : DF V S} {par : V → List V}
    (hpn : ∀ v ∈ net.nodes, ∀ p ∈ par v, p ∈ net.nodes) {x₀ : V → S} {ev : List (V × S)} (hev : ∀ q ∈ ev, q.1 ∈ net.nodes)
    {y : V → S} (hy : ∀ v ∈ net.nodes, y v ∈ statesOf net v) (hag : Agrees ev y)
    (hpos : ∀ v ∈ net.nodes, 0 < estimate a (statesOf net v) ((par v).map fun p => (statesOf net p).length).prod
      (fun s => observed net df v (par v) s ((par v).map y)) (y v)) :
    0 < dataMass a net df par x₀ (Agrees ev) := by
  obtain ⟨x, h1, h2⟩ := mem_worlds (x₀ := x₀) hy
  have hxy : dataJoint a net df par x = dataJoint a net df par y := by
    unfold dataJoint
    congr 1
    apply List.map_congr_left
    intro v hv
    have : (par v).map x = (par v).map y := List.map_congr_left fun p hp => h2 p (hpn v hv p hp)
    rw [h2 v hv, this]
  have hnn : ∀ z, 0 ≤ dataJoint a net df par z := fun z => prod_map_nonneg fun v _ => estimate_nonneg hess ..
  have hjp : 0 < dataJoint a net df par x := by
    rw [hxy]
    exact prod_map_pos hpos
  unfold dataMass BBN.massWith
  refine lt_of_lt_of_le hjp (List.single_le_sum ?_ _ (List.mem_map_of_mem (List.mem_filter.2 ⟨h1, ?_⟩)))
  · intro q hq
    obtain ⟨z, -, rfl⟩ := List.mem_map.1 hq
    exact hnn z
  · rw [decide_eq_true_eq]
    intro q hq
    rw [h2 _ (hev q hq)]
    exact hag q hq

/-- **C105**: states of the parents that occur in a complete row of the data the network was fitted to are possible evidence. -/
theorem seen_possible {a : FitArgs K} (hess : ∀ n, a.ess = some n → 0 < n) {net : Net V S K} {df : DF V S} {par : V → List V}
    (hpn : ∀ v ∈ net.nodes, ∀ p ∈ par v, p ∈ net.nodes) {x₀ : V → S} {r : V → Option S} (hr : r ∈ df.rows) (hk : Known net r)
    {l : List V} (hl : ∀ p ∈ l, p ∈ net.nodes) {ps : List S} (hps : l.map r = ps.map some) :
    0 < dataMass a net df par x₀ (Agrees (l.zip ps)) := by
  have hy : ∀ v ∈ net.nodes, (r v).getD (x₀ v) ∈ statesOf net v ∧ r v = some ((r v).getD (x₀ v)) := by
    intro v hv
    obtain ⟨s, h1, h2⟩ := hk v hv
    rw [h2]
    exact ⟨h1, rfl⟩
  refine dataMass_pos hess hpn (y := fun v => (r v).getD (x₀ v)) (fun q hq => hl _ (List.of_mem_zip hq).1) (fun v hv => (hy v hv).1) ?_ ?_
  · intro q hq
    obtain ⟨i, hi, rfl⟩ := List.getElem_of_mem hq
    rw [List.length_zip] at hi
    rw [List.getElem_zip]
    dsimp only
    have := congrArg (fun l => l[i]?) hps
    simp only [List.getElem?_map] at this
    rw [List.getElem?_eq_getElem (by omega), List.getElem?_eq_getElem (by omega)] at this
    simp only [Option.map_some, Option.some.injEq] at this
    rw [this]
    rfl
  · intro v hv
    refine estimate_pos_of_seen hess _ (hy v hv).1 ?_
    unfold observed
    rw [List.countP_pos_iff]
    refine ⟨r, hr, ?_⟩
    rw [decide_eq_true_eq]
    refine ⟨hk, (hy v hv).2, ?_⟩
    rw [List.map_map]
    apply List.map_congr_left
    intro p hp
    exact (hy p (hpn v hv p hp)).2

/-- **C105**: with a Bayesian estimator all evidence is possible, so predictions and exact inference agree for all rows. -/
theorem smoothed_possible {a : FitArgs K} (hess : ∀ n, a.ess = some n → 0 < n) (hm : a.method ≠ "MaximumLikelihoodEstimator")
    (hp : a.prior = some "K2" ∨ ∃ n, a.ess = some n ∧ 0 < n) {net : Net V S K} (hne : ∀ v ∈ net.nodes, statesOf net v ≠ [])
    {df : DF V S} {par : V → List V} (hpn : ∀ v ∈ net.nodes, ∀ p ∈ par v, p ∈ net.nodes) {x₀ : V → S}
    (hx₀ : ∀ v ∈ net.nodes, x₀ v ∈ statesOf net v) {l : List V} (hl : ∀ p ∈ l, p ∈ net.nodes) (hnd : l.Nodup) {ps : List S}
    (hps : IsConfig net l ps) :
    0 < dataMass a net df par x₀ (Agrees (l.zip ps)) := by
  have hlen : ps.length = l.length := List.Forall₂.length_eq hps
  rcases l.eq_nil_or_concat with rfl | ⟨l', d, rfl⟩
  · refine dataMass_pos hess hpn (y := x₀) (by simp) hx₀ (by simp [Agrees]) fun v hv => ?_
    refine estimate_pos_of_prior hm hp (hne v hv) (prod_map_pos fun p hpp => ?_) _ _
    exact List.length_pos_iff.2 (hne p (hpn v hv p hpp))
  · obtain ⟨z, hz1, hz2⟩ := zip_agrees hnd hlen (d := x₀ d)
    refine dataMass_pos hess hpn (y := fun v => if v ∈ l'.concat d then z v else x₀ v)
      (fun q hq => hl _ (List.of_mem_zip hq).1) ?_ ?_ fun v hv => ?_
    · intro v hv
      split
      · rename_i hvl
        rw [← hz2, IsConfig, List.forall₂_map_left_iff, List.forall₂_same] at hps
        exact hps v hvl
      · exact hx₀ v hv
    · intro q hq
      dsimp only
      rw [if_pos (List.of_mem_zip hq).1]
      exact hz1 q hq
    · refine estimate_pos_of_prior hm hp (hne v hv) (prod_map_pos fun p hpp => ?_) _ _
      exact List.length_pos_iff.2 (hne p (hpn v hv p hpp))

end

/-! ### Example: the network of two nodes in `Witness` -/

section
open Witness

/-- C105 applies to this network: the rows of the data are possible evidence, and predictions for them agree with exact inference. -/
example : ∃ tables t e, cpds net₂ = .ok tables ∧ (1, t) ∈ tables ∧ BBN.Engine.create (fun _ => true) (framesOf tables) = .ok e ∧
    ∃ h' out, predict (fun _ => []) int (fun _ => 9) net₂ [df] 0 1 = (h', .ok out) ∧
      List.Forall₂ (fun r r' => ∃ s ∈ statesOf net₁ 1, r' 9 = some s ∧ ∃ ps, t.parents.map r = ps.map some ∧
          ∃ ans, e.query BBN.exNd (t.parents.zip ps) = .ok ans ∧
            ∃ p, Gives ans 1 s p ∧ ∀ s' ∈ statesOf net₁ 1, ∃ q, Gives ans 1 s' q ∧ q ≤ p ∧ (s' < s → q < p))
        df.rows out.rows := by
  obtain ⟨tables, hc, h2, hfit⟩ := fitted_is_network int_injective isStructure (by decide) reach₁ nonempty₁
    (by simp) fit_eq
  obtain ⟨-, -, -, tables', hc', -, h3⟩ := fit_cpds_correct int_injective isStructure reach₁ nonempty₁ (h := [df]) (ref := 0)
    (df := df) rfl fit_eq
  rw [hc] at hc'
  cases hc'
  have h1 : (1 : ℕ) ∈ tables.map Prod.fst := by rw [h2, nodes₁]; decide
  obtain ⟨⟨_, t⟩, ht, rfl⟩ := List.mem_map.1 h1
  obtain ⟨e, he, -, -⟩ := BBN.Engine.create_ok hfit (okName := fun _ => true) fun _ _ => rfl
  have hpar : ∀ v ∈ net₁.nodes, IsParentList E v (if v = 1 then [0] else []) := by
    rw [nodes₁]
    intro v hv
    simp only [List.mem_cons, List.not_mem_nil, or_false] at hv
    rcases hv with rfl | rfl
    · refine ⟨by simp, fun u => ?_⟩
      simp [E]
    · refine ⟨by simp, fun u => ?_⟩
      simp [E]
  have htp : t.parents = [0] := parentList_unique (h3 1 t ht).2.1 (hpar 1 (by rw [nodes₁]; decide))
  have hk : ∀ r ∈ df.rows, ∀ p ∈ t.parents, ∃ s ∈ statesOf net₁ p, r p = some s := by
    rw [htp]
    decide +kernel
  obtain ⟨h', out, h4, h5⟩ := predict_is_query_argmax int_injective isStructure (by decide) reach₁ nonempty₁ (df₀ := df) rfl (by simp)
    fit_eq hpar hc BBN.exNd_legal he (fun _ _ => rfl) (x₀ := fun _ => 5) (by rw [nodes₁]; decide +kernel) ht (h := [df]) (ref := 0) (df := df) rfl
    (by rw [htp]; decide) hk (fun _ => []) (fun _ => 9)
  refine ⟨tables, t, e, hc, ht, he, h', out, h4, ((List.forall₂_and_left df.rows _).2 ⟨fun r hr => hr, h5⟩).imp ?_⟩
  rintro r r' ⟨hr, s, hs, h6, ps, h7, h8⟩
  refine ⟨s, hs, h6, ps, h7, h8 (seen_possible (by simp) ?_ hr ?_ ?_ h7)⟩
  · rw [nodes₁]; decide
  · have : ∀ r ∈ df.rows, Known net₁ r := by decide +kernel
    exact this r hr
  · rw [htp, nodes₁]; decide

/-- With a Bayesian estimator all evidence is possible, seen or not. -/
example : 0 < dataMass (K := ℚ) ⟨"BayesianEstimator", some "K2", none⟩ net₁ df (fun v => if v = 1 then [0] else []) (fun _ => 5)
    (Agrees ([0].zip [7])) := by
  refine smoothed_possible (by simp) (by decide) (Or.inl rfl) nonempty₁ (by rw [nodes₁]; decide) (by rw [nodes₁]; decide +kernel)
    (by rw [nodes₁]; decide) (by decide) ?_
  exact .cons (by decide +kernel) .nil

end

end Verif.Network
