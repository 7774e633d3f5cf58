import Verif.BBN.RoundingQuery
import Verif.Float.Basic
import Mathlib.Algebra.Order.BigOperators.Ring.Finset
import Mathlib.Data.List.GetD

/-!
# Accuracy of inference in floating point (C85)
-/

namespace Verif.BBN

open Function

section
variable {V S : Type} [LinearOrder V] [DecidableEq S] {u : ℚ} {rd : ℚ → ℚ}

/-- Roundings in a marginal of a network with `n` variables and tables of at most `L` entries. -/
def marginalBound (n L : ℕ) : ℕ := propagateBound n n L + L

/-- Roundings in an answer, normalised or not. -/
def answerBound (n L : ℕ) : ℕ := marginalBound n L + (marginalBound n L + L) + 1

theorem collectBound_mono {n m A L : ℕ} (h : n ≤ m) : collectBound n A L ≤ collectBound m A L := by
  unfold collectBound
  have := Nat.mul_le_mul_right (A + L + 2) h
  omega

theorem propagateBound_mono {n m A L : ℕ} (h : n ≤ m) : propagateBound n A L ≤ propagateBound m A L := by
  unfold propagateBound
  have h1 := collectBound_mono (A := A) (L := L) h
  have h2 : (n + 1) * (2 * collectBound n A L + L + 2) ≤ (m + 1) * (2 * collectBound m A L + L + 2) :=
    Nat.mul_le_mul (by omega) (by omega)
  omega

omit [DecidableEq S] in
theorem cliques_length {K : Type} {nd : Nondet V} {nodes : List (Node V S K)} (h : NodesWF nodes) {jt : JT V}
    (hjt : buildJoinTree nd nodes = .ok jt) : jt.cliques.length ≤ nodes.length := by
  obtain ⟨L, hL, _, hc, _, _⟩ := triangulate_elim priorityFunc (moral_wf h)
  have hb : buildJoinTree nd nodes = joinTreeOf nd (recorded L) := by
    unfold buildJoinTree
    rw [← hc]; rfl
  rw [hb] at hjt
  have hp := hL.perm.length_eq
  rw [moral_nodes] at hp
  simp only [List.length_map] at hp
  have hcl : jt.cliques = recorded L := by
    unfold joinTreeOf at hjt
    split at hjt
    · cases hjt
    · cases hjt; rfl
    · cases hjt
  rw [hcl, ← hp]
  unfold recorded
  exact (maxi_length _).trans (by simp)

/-- All steps of a query before normalisation. -/
theorem query_sim_raw (h : Rounds u rd) {nd : Nondet V} (hnd : nd.Legal) {dom : V → List S}
    {nodes : List (Node V S (Fl rd))} (hw : NodesWF nodes) {x₀ : V → S} (hx₀ : ∀ v ∈ nodes.map Node.var, x₀ v ∈ dom v)
    (hpos : NonNeg dom (nodes.map Node.exact)) {ev : List (V × S)} {L : ℕ}
    (hL : ∀ jt, buildJoinTree nd nodes = .ok jt → ∀ c ∈ jt.cliques, ∏ v ∈ c, (dom v).length ≤ L)
    {res' : List ((V × S) × ℚ)} (hq : query nd dom (nodes.map Node.exact) ev = .ok res') :
    ∃ ms ms', (∀ a ∈ ms, ∃ q, a.2.val = rd q) ∧ CloseAns u (marginalBound nodes.length L) ms ms' ∧
      query nd dom nodes ev = .ok (if ev = [] then ms else normalise ms) ∧
      res' = (if ev = [] then ms' else normalise ms') ∧ ∀ n ∈ nodes, (dom n.var).length ≤ L := by
  unfold query at hq ⊢
  rw [validateKeyvals_exact, buildJoinTree_exact] at hq
  cases hv : validateKeyvals dom nodes ev with
  | error e => rw [hv] at hq; simp [bind, Except.bind] at hq
  | ok _ =>
    rw [hv] at hq
    cases hjt : buildJoinTree nd nodes with
    | error e => rw [hjt] at hq; simp [bind, Except.bind] at hq
    | ok jt =>
      rw [hjt] at hq
      simp only [bind, Except.bind] at hq ⊢
      have ht := buildJoinTree_facts hnd hw hjt
      have hposdom : ∀ c ∈ jt.cliques, 0 < ∏ v ∈ c, (dom v).length := by
        intro c hc
        apply Finset.prod_pos
        intro v hv
        obtain ⟨i, hi, hci⟩ := List.mem_iff_getElem.1 hc
        have hvi : v ∈ clq jt.cliques i := by
          unfold clq
          rw [List.getD_eq_getElem _ _ hi, hci]
          exact hv
        exact List.length_pos_of_mem (hx₀ v (ht.vars i v hvi))
      have hclq : ∀ i, i < jt.cliques.length → clq jt.cliques i ∈ jt.cliques := by
        intro i hi
        unfold clq
        rw [List.getD_eq_getElem _ _ hi]
        exact List.getElem_mem _
      have hcpos : 0 < jt.cliques.length := by
        have := ht.junction.edge_count
        omega
      have hL1 : 1 ≤ L := (hposdom _ (hclq 0 hcpos)).trans_le (hL jt hjt _ (hclq 0 hcpos))
      have hLp : ∀ i, (perms dom (names (clq jt.cliques i))).length ≤ L := by
        intro i
        rw [perms_names_length]
        by_cases hi : i < jt.cliques.length
        · exact hL jt hjt _ (hclq i hi)
        · have : clq jt.cliques i = ∅ := by
            unfold clq
            rw [List.getD_eq_default _ _ (by omega)]
          rw [this]
          simpa using hL1
      have hLd : ∀ n ∈ nodes, (dom n.var).length ≤ L := by
        intro n hn
        obtain ⟨i, hi, hsub⟩ := ht.family n hn
        have hvi : n.var ∈ clq jt.cliques i := hsub (by simpa using hw.var_mem n hn)
        exact (Nat.le_of_dvd (hposdom _ (hclq i hi)) (Finset.dvd_prod_of_mem _ hvi)).trans (hL jt hjt _ (hclq i hi))
      cases hasg : assignClusters jt (nodes.map Node.exact) with
      | error e => rw [hasg] at hq; simp at hq
      | ok asg' =>
        obtain ⟨asg, h1, h2, h3⟩ := assignClusters_sim hasg
        rw [hasg] at hq
        rw [h1]
        simp only at hq ⊢
        subst h2
        cases hini : initPotentials dom jt (asg.map fun p => (p.1, p.2.exact)) ev with
        | error e => rw [hini] at hq; simp at hq
        | ok Q =>
          obtain ⟨F, hF, hsim⟩ := initPotentials_sim h hpos x₀ h3 hLp hini
          rw [hini] at hq
          rw [hF]
          simp only at hq ⊢
          cases hord : jt.order with
          | nil => rw [hord] at hq; simp at hq
          | cons start rest =>
            rw [hord] at hq
            simp only at hq ⊢
            have hstart : start < jt.cliques.length :=
              List.mem_range.1 (ht.junction.order_perm.mem_iff.1 (by rw [hord]; simp))
            cases hprop : propagate jt (fun i => nd.setOrd i (neighbours jt.edges i)) start Q with
            | error e => rw [hprop] at hq; simp at hq
            | ok Q' =>
              have hop : ∀ i, (nd.setOrd i (neighbours jt.edges i)).Perm (neighbours jt.edges i) :=
                fun i => hnd.ord_perm i _
              obtain ⟨f, hfr, hff, -, hfn, hfl⟩ := exists_rf ht.junction
                (ord := fun i => nd.setOrd i (neighbours jt.edges i))
                (fun i => (hop i).nodup_iff.2 (neighbours_nodup ht.junction.forest i))
                (fun i j => by rw [(hop i).mem_iff, mem_neighbours]) hstart
              have hperm : (start :: f.labels).Perm (List.range jt.cliques.length) := by
                apply (List.perm_ext_iff_of_nodup hfn List.nodup_range).2
                intro x
                rw [hfl, List.mem_range]
              have hlen : f.labels.length < jt.cliques.length := by
                have := hperm.length_eq
                simp at this
                omega
              obtain ⟨F', c', sl', hF', hsim', hc'⟩ := propagate_sim h hfr hff hfn hlen hsim (fun _ => le_rfl) (fun _ => rfl) hprop
              have hcl := cliques_length hw hjt
              have hb : ∀ i, i < jt.cliques.length → c' i ≤ propagateBound nodes.length nodes.length L := fun i hi =>
                (hc' i ((hfl i).2 hi)).trans (propagateBound_mono (by omega))
              rw [hprop] at hq
              rw [hF']
              simp only at hq ⊢
              split at hq
              · cases hq
              · rename_i mss' hms
                obtain ⟨mss, hm1, hm2⟩ := mapM_rel (forall₂_map_right_self Node.exact nodes)
                  (T := fun (x : List ((V × S) × Fl rd)) (y : List ((V × S) × ℚ)) =>
                    CloseAns u (marginalBound nodes.length L) x y ∧ ∀ a ∈ x, ∃ q, a.2.val = rd q)
                  (f := fun n => do
                    let tt ← marginal jt F' n.var
                    return unpackMarginal tt) (by
                    intro n _ n' _ hnn y hy
                    subst hnn
                    have e : marginal jt Q' n.exact.var = marginal jt Q' n.var := rfl
                    rw [e] at hy
                    unfold marginal at hy ⊢
                    cases hfil : jt.order.filter (fun i => decide (n.var ∈ clq jt.cliques i)) with
                    | nil => rw [hfil] at hy; simp at hy
                    | cons i rest' =>
                      rw [hfil] at hy
                      simp only [bind, Except.bind, pure, Except.pure] at hy ⊢
                      have hi : i < jt.cliques.length := by
                        have : i ∈ jt.order.filter (fun i => decide (n.var ∈ clq jt.cliques i)) := by rw [hfil]; simp
                        exact List.mem_range.1 (ht.junction.order_perm.mem_iff.1 (List.mem_of_mem_filter this))
                      cases hpr : project (Q'.cp i) (names (clq jt.cliques i)) [n.var] with
                      | error e => rw [hpr] at hy; simp at hy
                      | ok tt' =>
                        obtain ⟨tt, ht1, ht2, -⟩ := project_sim h (hsim'.cp i) _ _ hpr
                        rw [hpr] at hy
                        rw [ht1]
                        simp only [Except.ok.injEq] at hy ⊢
                        subst hy
                        refine ⟨_, rfl, unpackMarginal_sim (ht2.mono h ?_), ?_⟩
                        · have := hb i hi
                          have := hsim'.len i
                          unfold marginalBound
                          omega
                        · intro a ha
                          unfold unpackMarginal at ha
                          obtain ⟨b, hb, hab⟩ := List.mem_filterMap.1 ha
                          obtain ⟨q, hq⟩ := project_range ht1 b hb
                          obtain ⟨k, -, rfl⟩ := Option.map_eq_some_iff.1 hab
                          exact ⟨q, hq⟩) hms
                simp only [bind, Except.bind] at hm1
                rw [hm1]
                simp only [pure, Except.pure, Except.ok.injEq] at hq ⊢
                refine ⟨mss.flatten, mss'.flatten, ?_, forall₂_flatten (hm2.imp fun _ _ h => h.1), rfl, hq.symm, hLd⟩
                intro a ha
                obtain ⟨l, hl, hal⟩ := List.mem_flatten.1 ha
                obtain ⟨i, hi, rfl⟩ := List.mem_iff_getElem.1 hl
                exact ((List.forall₂_iff_get.1 hm2).2 i hi (by
                  have := (List.forall₂_iff_get.1 hm2).1; omega)).2 a hal

theorem allStates_filter_length {K : Type} {dom : V → List S} {nodes : List (Node V S K)} (hw : (nodes.map Node.var).Nodup) {L : ℕ}
    (hL : ∀ n ∈ nodes, (dom n.var).length ≤ L) (v : V) : ((allStates dom nodes).filter (·.1 = v)).length ≤ L := by
  induction nodes with
  | nil => simp [allStates]
  | cons n nodes ih =>
    rw [List.map_cons, List.nodup_cons] at hw
    have e : allStates dom (n :: nodes) = (dom n.var).map (fun s => (n.var, s)) ++ allStates dom nodes := rfl
    rw [e, List.filter_append, List.length_append]
    by_cases hv : n.var = v
    · have h0 : (allStates dom nodes).filter (·.1 = v) = [] := by
        rw [List.filter_eq_nil_iff]
        rintro ⟨w, s⟩ ha
        obtain ⟨m, hm, ha⟩ := List.mem_flatMap.1 ha
        obtain ⟨t, -, hts⟩ := List.mem_map.1 ha
        simp only [Prod.mk.injEq] at hts
        simp only [decide_eq_true_eq]
        intro hwv
        apply hw.1
        rw [hv, ← hwv, ← hts.1]
        exact List.mem_map_of_mem hm
      rw [h0]
      have := hL n List.mem_cons_self
      have h1 := List.length_filter_le (fun p : V × S => decide (p.1 = v)) ((dom n.var).map (fun s => (n.var, s)))
      simp only [List.length_map] at h1
      simp only [List.length_nil]
      omega
    · have h0 : ((dom n.var).map (fun s => (n.var, s))).filter (·.1 = v) = [] := by
        rw [List.filter_eq_nil_iff]
        intro a ha
        obtain ⟨t, -, rfl⟩ := List.mem_map.1 ha
        simpa using hv
      rw [h0]
      simpa using ih hw.2 (fun n hn => hL n (List.mem_cons_of_mem _ hn))

theorem normalise_keys {K : Type} [Add K] [Mul K] [Div K] [Zero K] [One K] [DecidableEq K] (ms : List ((V × S) × K)) :
    (normalise ms).map Prod.fst = ms.map Prod.fst := by
  unfold normalise
  rw [List.map_map]
  apply List.map_congr_left
  intro m _
  simp only [Function.comp_def]
  split <;> rfl

theorem CloseAns.keys {n : ℕ} {t : List ((V × S) × Fl rd)} {t' : List ((V × S) × ℚ)} (c : CloseAns u n t t') :
    t.map Prod.fst = t'.map Prod.fst := by
  induction c with
  | nil => rfl
  | cons h _ ih => rw [List.map_cons, List.map_cons, h.1, ih]

theorem CloseAns.mem {n : ℕ} {t : List ((V × S) × Fl rd)} {t' : List ((V × S) × ℚ)} (c : CloseAns u n t t') {k : V × S}
    {p : Fl rd} (hm : (k, p) ∈ t) : ∃ q, (k, q) ∈ t' ∧ Close u n p.val q := by
  induction c with
  | nil => simp at hm
  | @cons a b t t' hab _ ih =>
    rcases List.mem_cons.1 hm with rfl | hm
    · obtain ⟨h1, h2⟩ := hab
      exact ⟨b.2, by rw [show k = b.1 from h1]; exact List.mem_cons_self, h2⟩
    · obtain ⟨q, h1, h2⟩ := ih hm
      exact ⟨q, List.mem_cons_of_mem _ h1, h2⟩

/-- What a query should answer: the marginal probability without evidence, the conditional probability otherwise; `nodes` are read as
exact numbers. -/
def exactAnswer (dom : V → List S) (nodes : List (Node V S ℚ)) (x₀ : V → S) (ev : List (V × S)) (v : V) (s : S) : ℚ :=
  if ev = [] then massOf dom nodes x₀ (fun x => x v = s)
  else massOf dom nodes x₀ (fun x => Agrees ev x ∧ x v = s) / massOf dom nodes x₀ (Agrees ev)

/-- `query_rounded`, and every answer is the result of a rounding; no variable has more states than the largest table has entries. -/
theorem query_rounded_range (h : Rounds u rd) {nd : Nondet V} (hnd : nd.Legal) {dom : V → List S}
    {nodes : List (Node V S (Fl rd))} (hw : NodesWF nodes) (hne : nodes ≠ []) (hc : Connected nodes)
    (hd : ∀ n ∈ nodes, (dom n.var).Nodup) {x₀ : V → S} (hx₀ : ∀ v ∈ nodes.map Node.var, x₀ v ∈ dom v)
    (hpos : NonNeg dom (nodes.map Node.exact)) {ev : List (V × S)} (hk : (ev.map Prod.fst).Nodup)
    (hev : GoodEvidence dom nodes ev) {L : ℕ}
    (hL : ∀ jt, buildJoinTree nd nodes = .ok jt → ∀ c ∈ jt.cliques, ∏ v ∈ c, (dom v).length ≤ L) :
    ∃ res, query nd dom nodes ev = .ok res ∧ (res.map Prod.fst).Perm (allStates dom nodes) ∧
      (∀ n ∈ nodes, (dom n.var).length ≤ L) ∧ ∀ v s p, ((v, s), p) ∈ res → (∃ q, p.val = rd q) ∧
        Close u (answerBound nodes.length L) p.val (exactAnswer dom (nodes.map Node.exact) x₀ ev v s) := by
  have hd' : ∀ n ∈ nodes.map Node.exact, (dom n.var).Nodup := by
    intro n hn
    obtain ⟨m, hm, rfl⟩ := List.mem_map.1 hn
    exact hd m hm
  obtain ⟨dom', hdom, hdn, hxv⟩ := exists_total_dom hd' (x₀ := x₀) (by rw [map_var_exact]; exact hx₀)
  have hev' : GoodEvidence dom (nodes.map Node.exact) ev := by
    intro p hp
    rw [map_var_exact]
    exact hev p hp
  obtain ⟨res', h1, h2, -, h3⟩ := query_answer hnd hdn hxv hw.exact (by simpa using hne)
    (by
      intro a ha b hb
      rw [map_var_exact] at ha hb
      rw [arrows_exact]
      exact hc a ha b hb)
    (by
      intro n hn x hx
      exact hpos n hn x fun a ha => by rw [← hdom a (hw.exact.args_sub n hn a ha)]; exact hx a ha) hk (hev'.congr hdom)
  rw [query_dom_congr hnd hw.exact hdom] at h1
  rw [allStates_congr hdom, allStates_exact] at h2
  simp only [massOf_dom_congr hdom] at h3
  obtain ⟨ms, ms', hrange, hclose, hq, hres, hLd⟩ := query_sim_raw h hnd hw hx₀ hpos hL h1
  have hkeys' : (ms'.map Prod.fst).Perm (allStates dom nodes) := by
    rw [hres] at h2
    split at h2
    · exact h2
    · rwa [normalise_keys] at h2
  have hB : ∀ v, (ms'.filter (·.1.1 = v)).length ≤ L := by
    intro v
    have e : (ms'.filter (·.1.1 = v)).length = ((ms'.map Prod.fst).filter (·.1 = v)).length := by
      rw [List.filter_map, List.length_map]; rfl
    rw [e, (hkeys'.filter _).length_eq]
    exact allStates_filter_length hw.nodup hLd v
  have hfin : CloseAns u (answerBound nodes.length L) (if ev = [] then ms else normalise ms) res' := by
    rw [hres]
    by_cases he : ev = []
    · rw [if_pos he, if_pos he]
      refine hclose.imp fun _ _ hab => ⟨hab.1, hab.2.mono h ?_⟩
      unfold answerBound; omega
    · rw [if_neg he, if_neg he]
      exact normalise_sim h hclose hB
  refine ⟨_, hq, ?_, ?_⟩
  · rw [hfin.keys]; exact h2
  refine ⟨hLd, ?_⟩
  · intro v s p hp
    obtain ⟨q, hm, hcl⟩ := hfin.mem hp
    rw [h3 v s q hm] at hcl
    refine ⟨?_, hcl⟩
    split at hp
    · exact hrange _ hp
    · unfold normalise at hp
      obtain ⟨m, hm', he⟩ := List.mem_map.1 hp
      dsimp only at he
      split at he
      · rw [he] at hm'
        exact hrange _ hm'
      · rw [← (Prod.mk.inj he).2]
        exact ⟨_, rfl⟩

/-- **C85.** With rounded arithmetic a query still succeeds and reports each pair of variable and state once; every answer is the exact
one up to a number of roundings that is polynomial in the number of variables and the size of the largest table. -/
theorem query_rounded (h : Rounds u rd) {nd : Nondet V} (hnd : nd.Legal) {dom : V → List S}
    {nodes : List (Node V S (Fl rd))} (hw : NodesWF nodes) (hne : nodes ≠ []) (hc : Connected nodes)
    (hd : ∀ n ∈ nodes, (dom n.var).Nodup) {x₀ : V → S} (hx₀ : ∀ v ∈ nodes.map Node.var, x₀ v ∈ dom v)
    (hpos : NonNeg dom (nodes.map Node.exact)) {ev : List (V × S)} (hk : (ev.map Prod.fst).Nodup)
    (hev : GoodEvidence dom nodes ev) {L : ℕ}
    (hL : ∀ jt, buildJoinTree nd nodes = .ok jt → ∀ c ∈ jt.cliques, ∏ v ∈ c, (dom v).length ≤ L) :
    ∃ res, query nd dom nodes ev = .ok res ∧ (res.map Prod.fst).Perm (allStates dom nodes) ∧
      ∀ v s p, ((v, s), p) ∈ res →
        Close u (answerBound nodes.length L) p.val (exactAnswer dom (nodes.map Node.exact) x₀ ev v s) := by
  obtain ⟨res, h1, h2, -, h3⟩ := query_rounded_range h hnd hw hne hc hd hx₀ hpos hk hev hL
  exact ⟨res, h1, h2, fun v s p hp => (h3 v s p hp).2⟩

/-- **C85.** The relative error of every answer, and impossible means zero: an answer is `0` exactly when the exact one is. -/
theorem query_rounded_error (h : Rounds u rd) {nd : Nondet V} (hnd : nd.Legal) {dom : V → List S}
    {nodes : List (Node V S (Fl rd))} (hw : NodesWF nodes) (hne : nodes ≠ []) (hc : Connected nodes)
    (hd : ∀ n ∈ nodes, (dom n.var).Nodup) {x₀ : V → S} (hx₀ : ∀ v ∈ nodes.map Node.var, x₀ v ∈ dom v)
    (hpos : NonNeg dom (nodes.map Node.exact)) {ev : List (V × S)} (hk : (ev.map Prod.fst).Nodup)
    (hev : GoodEvidence dom nodes ev) {L : ℕ}
    (hL : ∀ jt, buildJoinTree nd nodes = .ok jt → ∀ c ∈ jt.cliques, ∏ v ∈ c, (dom v).length ≤ L)
    (hu : 2 * (answerBound nodes.length L * u) ≤ 1) :
    ∃ res, query nd dom nodes ev = .ok res ∧ (res.map Prod.fst).Perm (allStates dom nodes) ∧
      ∀ v s p, ((v, s), p) ∈ res →
        0 ≤ p.val ∧ (p.val = 0 ↔ exactAnswer dom (nodes.map Node.exact) x₀ ev v s = 0) ∧
        |p.val - exactAnswer dom (nodes.map Node.exact) x₀ ev v s| ≤
          2 * (answerBound nodes.length L * u) * exactAnswer dom (nodes.map Node.exact) x₀ ev v s := by
  obtain ⟨res, h1, h2, h3⟩ := query_rounded h hnd hw hne hc hd hx₀ hpos hk hev hL
  refine ⟨res, h1, h2, fun v s p hp => ?_⟩
  have hcl := h3 v s p hp
  exact ⟨hcl.x_nonneg h, hcl.eq_zero_iff h, hcl.relative h hu⟩

theorem div_zero_iff {a b : ℚ} (hb : b ≠ 0) : a / b = 0 ↔ a = 0 := by
  rw [div_eq_zero_iff]
  exact ⟨fun h => h.resolve_right hb, Or.inl⟩

theorem Rounds.zero (h : Rounds u rd) : rd 0 = 0 := by
  have := h.near 0
  simpa using this

theorem foldl_zeros (h : Rounds u rd) {l : List (Fl rd)} (hl : ∀ a ∈ l, a.val = 0) {acc : Fl rd} (ha : rd acc.val = acc.val) :
    l.foldl (· + ·) acc = acc := by
  induction l with
  | nil => rfl
  | cons a l ih =>
    have e : acc + a = acc := by
      apply Fl.ext
      rw [Fl.add_val, hl a List.mem_cons_self, add_zero, ha]
    rw [List.foldl_cons, e]
    exact ih fun a ha => hl a (List.mem_cons_of_mem _ ha)

theorem normalise_single (h : Rounds u rd) (hone : rd 1 = 1) {ms : List ((V × S) × Fl rd)}
    (hn : (ms.map Prod.fst).Nodup) {v : V} {s : S} {p : Fl rd} (hrd : rd p.val = p.val) (hm : ((v, s), p) ∈ ms) (hp : p.val ≠ 0)
    (h0 : ∀ t q, ((v, t), q) ∈ ms → t ≠ s → q.val = 0) {r : Fl rd} (hr : ((v, s), r) ∈ normalise ms) : r.val = 1 := by
  have hz : ((ms.filter (·.1.1 = v)).map (·.2)).foldl (· + ·) 0 = p := by
    obtain ⟨l₁, l₂, rfl⟩ := List.append_of_mem hm
    have hn' := hn
    rw [List.map_append, List.map_cons, List.nodup_append, List.nodup_cons] at hn'
    obtain ⟨-, ⟨hn2, -⟩, hn1⟩ := hn'
    have hz1 : ∀ a ∈ (l₁.filter (·.1.1 = v)).map (·.2), a.val = 0 := by
      intro a ha
      obtain ⟨⟨⟨w, t⟩, q⟩, hb, rfl⟩ := List.mem_map.1 ha
      obtain ⟨hb', hw⟩ := List.mem_filter.1 hb
      simp only [decide_eq_true_eq] at hw
      subst hw
      refine h0 t q (by simp [hb']) ?_
      rintro rfl
      exact hn1 (w, t) (List.mem_map_of_mem (f := Prod.fst) hb') (w, t) List.mem_cons_self rfl
    have hz2 : ∀ a ∈ (l₂.filter (·.1.1 = v)).map (·.2), a.val = 0 := by
      intro a ha
      obtain ⟨⟨⟨w, t⟩, q⟩, hb, rfl⟩ := List.mem_map.1 ha
      obtain ⟨hb', hw⟩ := List.mem_filter.1 hb
      simp only [decide_eq_true_eq] at hw
      subst hw
      refine h0 t q (by simp [hb']) ?_
      rintro rfl
      exact hn2 (List.mem_map.2 ⟨_, hb', rfl⟩)
    have e : (0 : Fl rd) + p = p := by
      apply Fl.ext
      rw [Fl.add_val, Fl.zero_val, zero_add, hrd]
    rw [List.filter_append, List.filter_cons, if_pos (by simp), List.map_append, List.map_cons, List.foldl_append,
      foldl_zeros h hz1 (by rw [Fl.zero_val]; exact h.zero), List.foldl_cons, e]
    exact foldl_zeros h hz2 hrd
  unfold normalise at hr
  obtain ⟨⟨⟨v', s'⟩, p'⟩, hb, heq⟩ := List.mem_map.1 hr
  have hk : (v', s') = (v, s) := by
    simp only at heq
    split at heq <;> simpa using (congrArg Prod.fst heq)
  simp only [Prod.mk.injEq] at hk
  obtain ⟨rfl, rfl⟩ := hk
  have hpp : p' = p := by
    have h1 := lookup_of_mem_nodup hn hb
    have h2 := lookup_of_mem_nodup hn hm
    rw [h1] at h2
    exact Option.some.inj h2
  subst hpp
  simp only [hz] at heq
  rw [if_neg (fun hh => hp (by rw [hh]; rfl))] at heq
  simp only [Prod.mk.injEq, true_and] at heq
  rw [← heq, Fl.div_val, div_self hp, hone]

/-- **C85.** Observed variables are reported exactly: `1` for the observed state and `0` for the others, when the evidence is possible.
-/
theorem query_rounded_observed (h : Rounds u rd) (hid : ∀ q, rd (rd q) = rd q) (hone : rd 1 = 1) {nd : Nondet V} (hnd : nd.Legal)
    {dom : V → List S} {nodes : List (Node V S (Fl rd))} (hw : NodesWF nodes) (hne : nodes ≠ []) (hc : Connected nodes)
    (hd : ∀ n ∈ nodes, (dom n.var).Nodup) {x₀ : V → S} (hx₀ : ∀ v ∈ nodes.map Node.var, x₀ v ∈ dom v)
    (hpos : NonNeg dom (nodes.map Node.exact)) {ev : List (V × S)} (hk : (ev.map Prod.fst).Nodup)
    (hev : GoodEvidence dom nodes ev) (hmass : massOf dom (nodes.map Node.exact) x₀ (Agrees ev) ≠ 0) :
    ∃ res, query nd dom nodes ev = .ok res ∧ (res.map Prod.fst).Perm (allStates dom nodes) ∧
      ∀ v s t p, (v, s) ∈ ev → ((v, t), p) ∈ res → p.val = if t = s then 1 else 0 := by
  -- any bound on the sizes of the tables will do
  obtain ⟨L, hL⟩ : ∃ L, ∀ jt, buildJoinTree nd nodes = .ok jt → ∀ c ∈ jt.cliques, ∏ v ∈ c, (dom v).length ≤ L := by
    cases hjt : buildJoinTree nd nodes with
    | error e => exact ⟨0, fun jt hh => by cases hh⟩
    | ok jt =>
      refine ⟨(jt.cliques.map fun c => ∏ v ∈ c, (dom v).length).sum, fun jt' hh c hc => ?_⟩
      cases hh
      exact List.single_le_sum (by simp) _ (List.mem_map_of_mem hc)
  obtain ⟨res, h1, h2, h3⟩ := query_rounded h hnd hw hne hc hd hx₀ hpos hk hev hL
  refine ⟨res, h1, h2, ?_⟩
  intro v s t p hvs hp
  have hne' : ev ≠ [] := by rintro rfl; simp at hvs
  have hcl := h3 v t p hp
  unfold exactAnswer at hcl
  rw [if_neg hne'] at hcl
  have hother : ∀ t', t' ≠ s → massOf dom (nodes.map Node.exact) x₀ (fun x => Agrees ev x ∧ x v = t') = 0 := by
    intro t' ht'
    unfold massOf
    rw [show (worlds dom ((nodes.map Node.exact).map Node.var) x₀).filter (fun x => decide (Agrees ev x ∧ x v = t')) = [] from ?_]
    · rfl
    · rw [List.filter_eq_nil_iff]
      intro x _
      simp only [decide_eq_true_eq, not_and]
      intro hag hxt
      exact ht' (hxt.symm.trans (hag (v, s) hvs))
  by_cases ht : t = s
  · subst ht
    rw [if_pos rfl]
    -- the exact marginals
    obtain ⟨q', hq', hsame⟩ : ∃ res', query nd dom (nodes.map Node.exact) ev = .ok res' ∧ (res'.map Prod.fst).Perm (allStates dom nodes) ∧
        ∀ v s p, ((v, s), p) ∈ res' → p = massOf dom (nodes.map Node.exact) x₀ (fun x => Agrees ev x ∧ x v = s) /
          massOf dom (nodes.map Node.exact) x₀ (Agrees ev) := by
      have hd' : ∀ n ∈ nodes.map Node.exact, (dom n.var).Nodup := by
        intro n hn
        obtain ⟨m, hm, rfl⟩ := List.mem_map.1 hn
        exact hd m hm
      obtain ⟨dom', hdom, hdn, hxv⟩ := exists_total_dom hd' (x₀ := x₀) (by rw [map_var_exact]; exact hx₀)
      have hev' : GoodEvidence dom (nodes.map Node.exact) ev := by
        intro p hp
        rw [map_var_exact]
        exact hev p hp
      obtain ⟨res', h1, h2, -, h3⟩ := query_answer hnd hdn hxv hw.exact (by simpa using hne)
        (by
          intro a ha b hb
          rw [map_var_exact] at ha hb
          rw [arrows_exact]
          exact hc a ha b hb)
        (by
          intro n hn x hx
          exact hpos n hn x fun a ha => by rw [← hdom a (hw.exact.args_sub n hn a ha)]; exact hx a ha) hk (hev'.congr hdom)
      rw [query_dom_congr hnd hw.exact hdom] at h1
      rw [allStates_congr hdom, allStates_exact] at h2
      simp only [massOf_dom_congr hdom, if_neg hne'] at h3
      exact ⟨res', h1, h2, h3⟩
    obtain ⟨hkeys', hval⟩ := hsame
    obtain ⟨ms, ms', hrange, hclose, hq, hres, -⟩ := query_sim_raw h hnd hw hx₀ hpos hL hq'
    rw [if_neg hne'] at hq hres
    rw [h1] at hq
    simp only [Except.ok.injEq] at hq
    have hkeys : (ms.map Prod.fst).Perm (allStates dom nodes) := by
      rw [hq, normalise_keys] at h2; exact h2
    have hnodup : (ms.map Prod.fst).Nodup := by
      refine hkeys.nodup_iff.2 ?_
      unfold allStates
      rw [List.nodup_flatMap]
      constructor
      · intro n hn
        exact (hd n hn).map (fun a b hab => by simpa using hab)
      · have := hw.nodup
        rw [List.nodup_map_iff_inj_on] at this
        · have hnn : nodes.Nodup := List.Nodup.of_map _ hw.nodup
          refine hnn.imp_of_mem ?_
          intro a b ha hb hab
          rw [Function.onFun, List.disjoint_left]
          rintro ⟨w, r⟩ hwa hwb
          obtain ⟨_, -, e1⟩ := List.mem_map.1 hwa
          obtain ⟨_, -, e2⟩ := List.mem_map.1 hwb
          simp only [Prod.mk.injEq] at e1 e2
          exact hab (this a ha b hb (e1.1.trans e2.1.symm))
        · exact List.Nodup.of_map _ hw.nodup
    have hmem : ∀ r q, ((v, r), q) ∈ ms → (q.val = 0 ↔
        massOf dom (nodes.map Node.exact) x₀ (fun x => Agrees ev x ∧ x v = r) = 0) := by
      intro r q hrq
      obtain ⟨q0, hm0, hc0⟩ := hclose.mem hrq
      rw [hc0.eq_zero_iff h]
      have hin : ((v, r), if ((ms'.filter (·.1.1 = v)).map (·.2)).foldl (· + ·) 0 = 0 then q0
          else q0 / ((ms'.filter (·.1.1 = v)).map (·.2)).foldl (· + ·) 0) ∈ q' := by
        rw [hres]
        unfold normalise
        refine List.mem_map.2 ⟨_, hm0, ?_⟩
        dsimp only
        split <;> rfl
      have := hval v r _ hin
      rw [← div_zero_iff (a := massOf dom (nodes.map Node.exact) x₀ (fun x => Agrees ev x ∧ x v = r)) hmass, ← this]
      split
      · rfl
      · rename_i hz
        rw [div_zero_iff hz]
    have hpm : ∃ p₀, ((v, t), p₀) ∈ ms := by
      have : (v, t) ∈ res.map Prod.fst := List.mem_map_of_mem (f := Prod.fst) hp
      rw [hq, normalise_keys] at this
      obtain ⟨⟨k, p₀⟩, hk0, rfl⟩ := List.mem_map.1 this
      exact ⟨p₀, hk0⟩
    obtain ⟨p₀, hp₀⟩ := hpm
    obtain ⟨q₀, hq₀⟩ := hrange _ hp₀
    rw [hq] at hp
    refine normalise_single h hone hnodup (by rw [show p₀.val = rd q₀ from hq₀, hid]) hp₀ ?_ ?_ hp
    · intro hz
      have := (hmem t p₀ hp₀).1 hz
      apply hmass
      rw [← this]
      apply massOf_congr
      intro x
      constructor
      · intro hag; exact ⟨hag, hag (v, t) hvs⟩
      · exact fun hh => hh.1
    · intro r q hrq hrt
      exact (hmem r q hrq).2 (hother r hrt)
  · rw [if_neg ht]
    rw [hother t ht, zero_div] at hcl
    exact (hcl.eq_zero_iff h).2 rfl

end

/-! ### Double precision -/

/-- One operation on Python floats, within the range of normal numbers. -/
theorem rounds_double : Rounds (1 / 2 ^ 53) Float.rnd where
  nonneg := by norm_num
  lt_one := by norm_num
  near := by
    intro q
    have := Float.rnd_near q
    rw [div_eq_inv_mul] at this
    simpa using this

/-- Every table of the join tree is at most as large as the table of the joint distribution. -/
theorem table_bound {V S K : Type} [LinearOrder V] {nd : Nondet V} (hnd : nd.Legal) {dom : V → List S} {nodes : List (Node V S K)}
    (hw : NodesWF nodes) {x₀ : V → S} (hx₀ : ∀ v ∈ nodes.map Node.var, x₀ v ∈ dom v) :
    ∀ jt, buildJoinTree nd nodes = .ok jt → ∀ c ∈ jt.cliques,
      ∏ v ∈ c, (dom v).length ≤ (nodes.map fun n => (dom n.var).length).prod := by
  intro jt hjt c hc
  have ht := buildJoinTree_facts hnd hw hjt
  have hsub : c ⊆ (nodes.map Node.var).toFinset := by
    intro v hv
    obtain ⟨i, hi, rfl⟩ := List.mem_iff_getElem.1 hc
    rw [List.mem_toFinset]
    apply ht.vars i v
    unfold clq
    rw [List.getD_eq_getElem _ _ hi]
    exact hv
  have e : (nodes.map fun n => (dom n.var).length).prod = ∏ v ∈ (nodes.map Node.var).toFinset, (dom v).length := by
    rw [List.prod_toFinset _ hw.nodup, List.map_map]
    rfl
  rw [e]
  refine Finset.prod_le_prod_of_subset_of_one_le' hsub ?_
  intro v hv _
  exact List.length_pos_of_mem (hx₀ v (List.mem_toFinset.1 hv))

/-- **C85.** Double precision: the relative error of every answer is at most `2 * N / 2^53`, where `N` is polynomial in the number of
variables and the size of the largest table; impossible states get exactly `0`. -/
theorem query_double {V S : Type} [LinearOrder V] [DecidableEq S] {nd : Nondet V} (hnd : nd.Legal) {dom : V → List S}
    {nodes : List (Node V S (Fl Float.rnd))} (hw : NodesWF nodes) (hne : nodes ≠ []) (hc : Connected nodes)
    (hd : ∀ n ∈ nodes, (dom n.var).Nodup) {x₀ : V → S} (hx₀ : ∀ v ∈ nodes.map Node.var, x₀ v ∈ dom v)
    (hpos : NonNeg dom (nodes.map Node.exact)) {ev : List (V × S)} (hk : (ev.map Prod.fst).Nodup)
    (hev : GoodEvidence dom nodes ev) {L : ℕ}
    (hL : ∀ jt, buildJoinTree nd nodes = .ok jt → ∀ c ∈ jt.cliques, ∏ v ∈ c, (dom v).length ≤ L)
    (hN : answerBound nodes.length L ≤ 2 ^ 52) :
    ∃ res, query nd dom nodes ev = .ok res ∧ (res.map Prod.fst).Perm (allStates dom nodes) ∧
      ∀ v s p, ((v, s), p) ∈ res →
        0 ≤ p.val ∧ (p.val = 0 ↔ exactAnswer dom (nodes.map Node.exact) x₀ ev v s = 0) ∧
        |p.val - exactAnswer dom (nodes.map Node.exact) x₀ ev v s| ≤
          2 * answerBound nodes.length L / 2 ^ 53 * exactAnswer dom (nodes.map Node.exact) x₀ ev v s := by
  have hN' : (answerBound nodes.length L : ℚ) ≤ 2 ^ 52 := by exact_mod_cast hN
  obtain ⟨res, h1, h2, h3⟩ := query_rounded_error rounds_double hnd hw hne hc hd hx₀ hpos hk hev hL (by linarith)
  refine ⟨res, h1, h2, fun v s p hp => ?_⟩
  obtain ⟨a, b, c⟩ := h3 v s p hp
  refine ⟨a, b, c.trans (le_of_eq ?_)⟩
  ring

/-! ### Example: the network of `exNodes` with its probabilities in double precision -/

/-- A node with its probabilities rounded to double precision. -/
def toDouble (n : Node ℕ Bool ℚ) : Node ℕ Bool (Fl Float.rnd) :=
  { args := n.args, fn := fun a => ⟨Float.rnd (n.fn a)⟩, var := n.var }

theorem rnd_nonneg {q : ℚ} (h : 0 ≤ q) : 0 ≤ Float.rnd q := by
  have := Float.rnd_near q
  rw [abs_of_nonneg h, abs_le] at this
  have h1 : q / 2 ^ 53 ≤ q := div_le_self h (by norm_num)
  linarith [this.1]

theorem toDouble_wf : NodesWF (exNodes.map toDouble) := ⟨by decide, by decide, by decide, by decide⟩

theorem toDouble_connected : Connected (exNodes.map toDouble) := exNodes_network.connected

theorem toDouble_nonneg : NonNeg exDom ((exNodes.map toDouble).map Node.exact) := by
  intro n hn x hx
  obtain ⟨m, hm, rfl⟩ := List.mem_map.1 hn
  obtain ⟨k, hk, rfl⟩ := List.mem_map.1 hm
  exact rnd_nonneg (exNodes_network.nonneg k hk x hx)

example : ∃ res, query exNd exDom (exNodes.map toDouble) [(2, true)] = .ok res ∧ res.length = 6 ∧
    ∀ v s p, ((v, s), p) ∈ res →
      |p.val - exactAnswer exDom ((exNodes.map toDouble).map Node.exact) (fun _ => true) [(2, true)] v s| ≤
        1 / 10 ^ 12 * exactAnswer exDom ((exNodes.map toDouble).map Node.exact) (fun _ => true) [(2, true)] v s := by
  obtain ⟨res, h1, h2, h3⟩ := query_double (x₀ := fun _ => true) (ev := [(2, true)]) exNd_legal toDouble_wf (by decide)
    toDouble_connected (by intro n _; simp [exDom]) (by intro v _; simp [exDom]) toDouble_nonneg (by decide)
    (by
      intro p hp
      simp only [List.mem_singleton] at hp
      subst hp
      exact ⟨by decide, by decide⟩)
    (table_bound exNd_legal toDouble_wf (x₀ := fun _ => true) (by intro v _; simp [exDom])) (by decide)
  refine ⟨res, h1, by simpa [allStates, exNodes, exDom] using h2.length_eq, fun v s p hp => ?_⟩
  obtain ⟨_, _, c⟩ := h3 v s p hp
  refine c.trans (mul_le_mul_of_nonneg_right ?_ ?_)
  · have : answerBound (exNodes.map toDouble).length ((exNodes.map toDouble).map fun n => (exDom n.var).length).prod = 861 := by
      decide
    rw [this]
    norm_num
  · by_contra hneg
    push Not at hneg
    have := abs_nonneg (p.val - exactAnswer exDom ((exNodes.map toDouble).map Node.exact) (fun _ => true) [(2, true)] v s)
    have hc : (0 : ℚ) < 2 * (answerBound (exNodes.map toDouble).length
        ((exNodes.map toDouble).map fun n => (exDom n.var).length).prod : ℚ) / 2 ^ 53 := by
      apply div_pos (mul_pos (by norm_num) _) (by norm_num)
      exact_mod_cast (by decide : 0 < answerBound (exNodes.map toDouble).length
        ((exNodes.map toDouble).map fun n => (exDom n.var).length).prod)
    linarith [mul_neg_of_pos_of_neg hc hneg]

example : ∃ res, query exNd exDom (exNodes.map toDouble) [(2, true)] = .ok res ∧ res.length = 6 ∧
    ∀ t p, ((2, t), p) ∈ res → p.val = if t = true then 1 else 0 := by
  obtain ⟨res, h1, h2, h3⟩ := query_rounded_observed (x₀ := fun _ => true) (ev := [(2, true)]) rounds_double Float.rnd_rnd
    (by simpa using Float.rnd_int (n := 1) (by norm_num)) exNd_legal toDouble_wf (by decide)
    toDouble_connected (by intro n _; simp [exDom]) (by intro v _; simp [exDom]) toDouble_nonneg (by decide)
    (by
      intro p hp
      simp only [List.mem_singleton] at hp
      subst hp
      exact ⟨by decide, by decide⟩)
    (by decide +kernel)
  exact ⟨res, h1, by simpa [allStates, exNodes, exDom] using h2.length_eq, fun t p hp => h3 2 true t p (by simp) hp⟩

end Verif.BBN
