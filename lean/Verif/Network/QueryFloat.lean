import Verif.Network.FitFloat
import Verif.BBN.EngineFloatProps
import Verif.BBN.Chordal

/-!
# C112: from data to answers, all in double precision

The CPDs are estimated in double precision and the queries are answered in double precision.  The answers are compared with the exact
conditional probabilities under the exact estimates.
-/

namespace Verif.Network

open Verif.BBN (Fl Rounds Close rounds_double lookup_of_mem_nodup Frame netNodes cpdsOf domOf FlFitted FlReach ReportsNear answerWith
  answerBound massWith Node Engine Agrees)
open Function

/-! ### Exact operations on close numbers -/

section
variable {u : ℚ} {rd : ℚ → ℚ} {n m : ℕ} {x y a b : ℚ}

theorem close_mul (h : Rounds u rd) (c : Close u n x y) (d : Close u m a b) : Close u (n + m) (x * a) (y * b) := by
  refine ⟨mul_nonneg c.nonneg d.nonneg, ?_, ?_⟩
  · rw [pow_add, mul_mul_mul_comm]
    exact mul_le_mul c.lo d.lo (mul_nonneg (h.pos m).le d.nonneg) (c.x_nonneg h)
  · rw [pow_add, mul_mul_mul_comm]
    exact mul_le_mul c.hi d.hi (mul_nonneg (h.pos m).le (d.x_nonneg h)) c.nonneg

theorem close_div (h : Rounds u rd) (c : Close u n x y) (d : Close u m a b) : Close u (n + m) (x / a) (y / b) := by
  rw [div_eq_mul_inv, div_eq_mul_inv]
  exact close_mul h c (d.inv h)

theorem close_prod (h : Rounds u rd) {α : Type} {l : List α} {f g : α → ℚ} {k : α → ℕ} (hc : ∀ a ∈ l, Close u (k a) (f a) (g a)) :
    Close u (l.map k).sum (l.map f).prod (l.map g).prod := by
  induction l with
  | nil => exact Close.refl zero_le_one
  | cons a l ih =>
    simp only [List.map_cons, List.sum_cons, List.prod_cons]
    exact close_mul h (hc a (by simp)) (ih fun b hb => hc b (by simp [hb]))

theorem close_sum (h : Rounds u rd) {α : Type} {l : List α} {f g : α → ℚ} (hc : ∀ a ∈ l, Close u n (f a) (g a)) :
    Close u n (l.map f).sum (l.map g).sum := by
  induction l with
  | nil => exact (Close.refl (u := u) le_rfl).mono h (Nat.zero_le _)
  | cons a l ih =>
    have c := hc a (by simp)
    have d := ih fun b hb => hc b (by simp [hb])
    simp only [List.map_cons, List.sum_cons]
    refine ⟨add_nonneg c.nonneg d.nonneg, ?_, ?_⟩
    · rw [mul_add]; exact add_le_add c.lo d.lo
    · rw [mul_add]; exact add_le_add c.hi d.hi

end

section
variable {V S : Type} [LinearOrder V] [LinearOrder S]

/-- The relative error of the estimates of all nodes together, in units of the rounding error. -/
def fitBound {K : Type} (net : Net V S K) : ℕ := (net.nodes.map fun v => (statesOf net v).length + 7).sum

/-- The tables of a network fitted in double precision, as the inference engine reads them: they have the form that the engine needs, and
the joint weight of each assignment is close to the one defined by the exact estimates. -/
theorem fitted_double {int : ℕ → S} (hint : Injective int) {ns : List V} {E : List (V × V)} (hE : IsStructure ns E) (hEne : E ≠ [])
    {net net' : Net V S Double} (hr : Reach int ns E net) (hne : ∀ v ∈ net.nodes, statesOf net v ≠ [])
    {h h' : Heap V S} {ref : ℕ} {df : DF V S} (hdf : h[ref]? = some df) {a : FitArgs Double}
    (hess : ∀ n, a.ess = some n → 0 < n.val) (hf : fitCpds int net h ref a = (net', h', .ok ()))
    {par : V → List V} (hpar : ∀ v ∈ net.nodes, IsParentList E v (par v)) {tables : List (V × Table V S Double)}
    (hc : cpds net' = .ok tables) :
    FlFitted (framesOf tables) ∧ (framesOf tables).map Prod.fst = net.nodes ∧
      (∀ v ∈ net.nodes, domOf (framesOf tables) v = statesOf net v) ∧
      ∀ x : V → S, (∀ v ∈ net.nodes, x v ∈ statesOf net v) → Close (1 / 2 ^ 53) (fitBound net)
        (BBN.joint ((netNodes (cpdsOf (framesOf tables))).map Node.exact) x) (dataJoint a.exact net df par x) := by
  have hF := framesWF hint hE hEne hr hne hf hc
  obtain ⟨-, -, -, names, ps, hps, hlen, tables', hc', hkeys, h3⟩ := fit_cpds_tables hint hE hr hne hdf hf
  rw [hc] at hc'
  cases hc'
  obtain ⟨qs, hqs, hclose⟩ := pseudoOf_close rounds_double (fun n hn => (hess n hn).le) hps
  have hbn : (framesOf tables).map Prod.fst = net.nodes := by rw [← hkeys, framesOf, List.map_map]; rfl
  have hentry : ∀ v t, (v, t) ∈ tables → ∀ x : V → S, (∀ w ∈ v :: t.parents, x w ∈ domOf (framesOf tables) w) →
      ∃ y, t.entry (x v) (t.parents.map x) = some y ∧ Close (1 / 2 ^ 53) ((statesOf net v).length + 7) y.val
        (estimate a.exact (statesOf net v) ((par v).map fun p => (statesOf net p).length).prod
          (fun s => observed net df v (par v) s ((par v).map x)) (x v)) := by
    intro v t ht x hx
    have hv : v ∈ net.nodes := hkeys ▸ List.mem_map_of_mem ht
    obtain ⟨h1, h2, -, h4, h5⟩ := h3 v t ht
    rw [← parentList_unique h2 (hpar v hv)]
    refine ⟨_, h5 (x v) (by rw [← hF.dom v hv]; exact hx v (by simp)) _ ((h4 _).1 (hF.config v t ht x fun p hp =>
      hx p (List.mem_cons_of_mem _ hp))), ?_⟩
    have := probOf_close rounds_double (hclose v t.parents) (statesOf net v)
      (fun s => observed net df v t.parents s (t.parents.map x)) (x v)
    rw [probOf_eq_estimate hqs v t.parents (statesOf net v) (hlen v).symm] at this
    simp only [hlen] at this
    exact this
  refine ⟨⟨hF.wf, ?_, hF.acyclic, hF.connected, ?_, ?_⟩, hbn, hF.dom, ?_⟩
  · intro h0
    apply hF.nonempty
    rw [h0]
    rfl
  · intro v hv
    rw [hbn] at hv
    rw [hF.dom v hv]
    exact hF.nodup v
  · intro m hm x hx
    obtain ⟨n, hn, rfl⟩ := List.mem_map.1 hm
    obtain ⟨⟨v, t⟩, hq, rfl⟩ := mem_netNodes_framesOf.1 hn
    obtain ⟨y, hy, hcl⟩ := hentry v t hq x hx
    change 0 ≤ ((t.entry (x v) (t.parents.map x)).getD 0).val
    rw [hy]
    exact hcl.x_nonneg rounds_double
  · intro x hx
    unfold BBN.joint dataJoint fitBound
    rw [← hkeys, netNodes, cpdsOf, framesOf]
    simp only [List.map_map]
    apply close_prod rounds_double
    rintro ⟨v, t⟩ ht
    have hv : v ∈ net.nodes := hkeys ▸ List.mem_map_of_mem ht
    obtain ⟨y, hy, hcl⟩ := hentry v t ht x (by
      intro w hw
      have hwn : w ∈ net.nodes := by
        rcases List.mem_cons.1 hw with rfl | hw
        · exact hv
        · exact hF.parents_nodes v t ht w hw
      rw [hF.dom w hwn]
      exact hx w hwn)
    change Close _ _ ((t.entry (x v) (t.parents.map x)).getD 0).val _
    rw [hy]
    exact hcl

omit [LinearOrder S] in
theorem massWith_close [DecidableEq S] {u : ℚ} {rd : ℚ → ℚ} (h : Rounds u rd) {dom : V → List S} {vs : List V} {J J' : (V → S) → ℚ}
    {n : ℕ} (hJ : ∀ x, (∀ v ∈ vs, x v ∈ dom v) → Close u n (J x) (J' x)) (x₀ : V → S) (A : (V → S) → Prop) [DecidablePred A] :
    Close u n (massWith dom vs J x₀ A) (massWith dom vs J' x₀ A) := by
  unfold massWith
  refine close_sum h fun x hx => hJ x fun v hv => ?_
  exact (BBN.worlds_valid (List.mem_filter.1 hx).1 v).1 hv

omit [LinearOrder S] in
theorem answerWith_close [DecidableEq S] {u : ℚ} {rd : ℚ → ℚ} (h : Rounds u rd) {dom : V → List S} {vs : List V} {J J' : (V → S) → ℚ}
    {n : ℕ} (hJ : ∀ x, (∀ v ∈ vs, x v ∈ dom v) → Close u n (J x) (J' x)) (x₀ : V → S) (ev : List (V × S)) (w : V) (s : S) :
    Close u (2 * n) (answerWith dom vs J x₀ ev w s) (answerWith dom vs J' x₀ ev w s) := by
  unfold answerWith
  split
  · exact (massWith_close h hJ x₀ _).mono h (by omega)
  · rw [two_mul]
    exact close_div h (massWith_close h hJ x₀ _) (massWith_close h hJ x₀ _)

/-- **C112**: the whole way from data to an answer in double precision.  A network is fitted to data, by any method; an inference engine
is created from it.  Its answer to a query is, for every variable and state, the exact conditional probability under the exact estimates
from the data, up to the given relative error, and zero exactly if this probability is zero. -/
theorem fit_then_query_double {int : ℕ → S} (hint : Injective int) {ns : List V} {E : List (V × V)} (hE : IsStructure ns E)
    (hEne : E ≠ []) {net net' : Net V S Double} (hr : Reach int ns E net) (hne : ∀ v ∈ net.nodes, statesOf net v ≠ [])
    {h h' : Heap V S} {ref : ℕ} {df : DF V S} (hdf : h[ref]? = some df) {a : FitArgs Double}
    (hess : ∀ n, a.ess = some n → 0 < n.val) (hf : fitCpds int net h ref a = (net', h', .ok ()))
    {par : V → List V} (hpar : ∀ v ∈ net.nodes, IsParentList E v (par v))
    {nd : BBN.Nondet V} (hnd : nd.Legal) {okName : V → Bool} (hok : ∀ v ∈ net.nodes, okName v = true) :
    ∃ tables e, cpds net' = .ok tables ∧ Engine.create okName (framesOf tables) = .ok e ∧
      (∀ jt, BBN.buildJoinTree nd e.bbn = .ok jt → ∀ c ∈ jt.cliques,
        ∏ v ∈ c, (statesOf net v).length ≤ (net.nodes.map fun v => (statesOf net v).length).prod) ∧
      ((SimpleGraph.fromRel fun u v => (u, v) ∈ E).IsAcyclic → ∀ L,
        (∀ v ∈ net.nodes, (statesOf net v).length * ((par v).map fun p => (statesOf net p).length).prod ≤ L) →
        ∀ jt, BBN.buildJoinTree nd e.bbn = .ok jt → ∀ c ∈ jt.cliques, ∏ v ∈ c, (statesOf net v).length ≤ L) ∧
      ∀ x₀ : V → S, (∀ v ∈ net.nodes, x₀ v ∈ statesOf net v) → ∀ ev : List (V × S), (ev.map Prod.fst).Nodup →
        (∀ q ∈ ev, q.1 ∈ net.nodes ∧ q.2 ∈ statesOf net q.1) →
        ∀ L, (∀ jt, BBN.buildJoinTree nd e.bbn = .ok jt → ∀ c ∈ jt.cliques, ∏ v ∈ c, (statesOf net v).length ≤ L) →
        answerBound net.nodes.length L ≤ 2 ^ 52 → fitBound net ≤ 2 ^ 51 →
        ∃ out, e.query nd ev = .ok out ∧ ReportsNear (statesOf net) net.nodes
          (answerWith (statesOf net) net.nodes (dataJoint a.exact net df par) x₀ ev)
          ((answerBound net.nodes.length L + fitBound net) / 2 ^ 51) out := by
  obtain ⟨-, -, -, names, ps, -, -, tables, hc, hkeys, htab⟩ := fit_cpds_tables hint hE hr hne hdf hf
  obtain ⟨hfit, hbn, hdom, hJ⟩ := fitted_double hint hE hEne hr hne hdf hess hf hpar hc
  obtain ⟨e, he⟩ := hfit.create (okName := okName) (by
    intro q hq
    apply hok
    rw [← hbn]
    exact List.mem_map_of_mem hq)
  have hcp := (Engine.FlInv.created hfit he).2
  have hreach : FlReach nd (framesOf tables) e := ⟨okName, e, [], he, rfl⟩
  have hi := hreach.inv hfit
  have hp := hi.bbn_perm hfit
  have hw := (hi.wf hfit).1.perm hp.symm
  have hvars : (e.bbn.map Node.var).Perm net.nodes := by
    rw [← hbn, ← hi.vars, ← BBN.netNodes_vars]
    exact hp.map Node.var
  refine ⟨tables, e, hc, he, ?_, ?_, fun x₀ hx₀ ev hk hev L hL hN hM => ?_⟩
  · have hx : ∀ v ∈ net.nodes, ∃ s, s ∈ statesOf net v := fun v hv => List.exists_mem_of_ne_nil _ (hne v hv)
    have : Nonempty S := ⟨int 0⟩
    choose! x₀ hx₀ using hx
    intro jt hjt c hcc
    refine (BBN.table_bound hnd hw (fun v hv => hx₀ v (hvars.mem_iff.1 hv)) jt hjt c hcc).trans (le_of_eq ?_)
    rw [← (hvars.map fun v => (statesOf net v).length).prod_eq, List.map_map]
    rfl
  · intro hac L hL
    have hargs : ∀ n ∈ e.bbn, n.var ∈ net.nodes ∧ n.args = n.var :: par n.var := by
      intro n hn
      have hn := hp.mem_iff.1 hn
      rw [hcp] at hn
      obtain ⟨⟨v, t⟩, hq, rfl⟩ := mem_netNodes_framesOf.1 hn
      have hv : v ∈ net.nodes := hkeys ▸ List.mem_map_of_mem hq
      exact ⟨hv, congrArg (v :: ·) (parentList_unique (htab v t hq).2.1 (hpar v hv))⟩
    refine BBN.polytree_tables hw (hac.anti ?_) (fun v hv => hne v (hvars.mem_iff.1 hv)) ?_
    · intro u v huv
      rw [BBN.skeleton, SimpleGraph.fromRel_adj] at huv
      rw [SimpleGraph.fromRel_adj]
      have hedge : ∀ u v, (∃ n ∈ e.bbn, v = n.var ∧ u ∈ n.parents) → (u, v) ∈ E := by
        rintro u v ⟨n, hn, rfl, hu⟩
        obtain ⟨h1, h2⟩ := hargs n hn
        rw [Node.parents, List.mem_filter, h2] at hu
        rcases List.mem_cons.1 hu.1 with rfl | hu1
        · simp at hu
        · exact ((hpar _ h1).2 u).1 hu1
      exact ⟨huv.1, huv.2.imp (hedge u v) (hedge v u)⟩
    · intro n hn
      obtain ⟨h1, h2⟩ := hargs n hn
      rw [h2, List.map_cons, List.prod_cons]
      exact hL _ h1
  have hlen : (framesOf tables).length = net.nodes.length := by rw [← hbn, List.length_map]
  obtain ⟨out, ho, hrep⟩ := BBN.query_double_engine hnd hfit hreach (by rw [hcp]; exact hfit.connected) (x₀ := x₀) (ev := ev) (L := L)
    (by
      rw [hbn]
      intro v hv
      rw [hdom v hv]
      exact hx₀ v hv) hk (by
      rw [hbn]
      intro p hp
      rw [hdom _ (hev p hp).1]
      exact hev p hp) (by
      intro jt hjt c hcc
      refine le_trans (le_of_eq ?_) (hL jt hjt c hcc)
      apply Finset.prod_congr rfl
      intro v hv
      have ht := BBN.buildJoinTree_facts hnd hw hjt
      obtain ⟨i, hi', rfl⟩ := List.mem_iff_getElem.1 hcc
      have : v ∈ e.bbn.map Node.var := by
        apply ht.vars i v
        unfold BBN.clq
        rwa [List.getD_eq_getElem _ _ hi']
      rw [hdom]
      exact hvars.mem_iff.1 this) (by rwa [hlen])
  refine ⟨out, ho, ?_⟩
  rw [hbn, hlen, hcp] at hrep
  have hmem : ∀ q ∈ out, q.1 ∈ net.nodes := fun q hq => by rw [← hrep.vars]; exact List.mem_map_of_mem hq
  refine ⟨hrep.vars, fun q hq => by rw [← hdom q.1 (hmem q hq)]; exact hrep.states q hq, fun q hq r hr' => ?_⟩
  obtain ⟨p1, p2, p3⟩ := hrep.probs q hq r hr'
  have hcl : Close (1 / 2 ^ 53) (2 * fitBound net) (answerWith (domOf (framesOf tables)) net.nodes
      (BBN.joint ((netNodes (cpdsOf (framesOf tables))).map Node.exact)) x₀ ev q.1 r.1)
      (answerWith (statesOf net) net.nodes (dataJoint a.exact net df par) x₀ ev q.1 r.1) := by
    have hw : ∀ J : (V → S) → ℚ, answerWith (domOf (framesOf tables)) net.nodes J x₀ ev q.1 r.1 =
        answerWith (statesOf net) net.nodes J x₀ ev q.1 r.1 := by
      intro J
      unfold answerWith massWith
      rw [worlds_congr hdom]
    rw [hw]
    exact answerWith_close rounds_double hJ x₀ ev q.1 r.1
  have hrel := hcl.relative rounds_double (by
    have : (fitBound net : ℚ) ≤ 2 ^ 51 := by exact_mod_cast hM
    push_cast
    linarith)
  have hz := hcl.eq_zero_iff rounds_double
  have hB := hcl.nonneg
  have hA := hcl.x_nonneg rounds_double
  generalize answerWith (domOf (framesOf tables)) net.nodes (BBN.joint ((netNodes (cpdsOf (framesOf tables))).map Node.exact)) x₀ ev q.1
    r.1 = A at *
  generalize answerWith (statesOf net) net.nodes (dataJoint a.exact net df par) x₀ ev q.1 r.1 = B at *
  refine ⟨p1, p2.trans hz, ?_⟩
  have hNq : (answerBound net.nodes.length L : ℚ) ≤ 2 ^ 52 := by exact_mod_cast hN
  have hMq : (fitBound net : ℚ) ≤ 2 ^ 51 := by exact_mod_cast hM
  have hM0 : (0 : ℚ) ≤ fitBound net := Nat.cast_nonneg _
  have hN0 : (0 : ℚ) ≤ answerBound net.nodes.length L := Nat.cast_nonneg _
  generalize (answerBound net.nodes.length L : ℚ) = N at *
  generalize hMM : (fitBound net : ℚ) = M at *
  push_cast at hrel
  rw [hMM] at hrel
  have hA2 : A ≤ 2 * B := by
    rw [abs_le] at hrel
    have : 2 * (2 * M * (1 / 2 ^ 53)) * B ≤ 1 * B := mul_le_mul_of_nonneg_right (by linarith) hB
    linarith [hrel.2]
  calc |r.2.val - B| ≤ |r.2.val - A| + |A - B| := abs_sub_le _ _ _
    _ ≤ 2 * N / 2 ^ 53 * A + 2 * (2 * M * (1 / 2 ^ 53)) * B := add_le_add p3 hrel
    _ ≤ 2 * N / 2 ^ 53 * (2 * B) + 2 * (2 * M * (1 / 2 ^ 53)) * B := by gcongr
    _ = (N + M) / 2 ^ 51 * B := by ring

/-- **C112**, with a bound in terms of the number of nodes and of all combinations of states. -/
theorem fit_then_query_double_size {int : ℕ → S} (hint : Injective int) {ns : List V} {E : List (V × V)} (hE : IsStructure ns E)
    (hEne : E ≠ []) {net net' : Net V S Double} (hr : Reach int ns E net) (hne : ∀ v ∈ net.nodes, statesOf net v ≠ [])
    {h h' : Heap V S} {ref : ℕ} {df : DF V S} (hdf : h[ref]? = some df) {a : FitArgs Double}
    (hess : ∀ n, a.ess = some n → 0 < n.val) (hf : fitCpds int net h ref a = (net', h', .ok ()))
    {par : V → List V} (hpar : ∀ v ∈ net.nodes, IsParentList E v (par v))
    {nd : BBN.Nondet V} (hnd : nd.Legal) {okName : V → Bool} (hok : ∀ v ∈ net.nodes, okName v = true)
    (hN : answerBound net.nodes.length (net.nodes.map fun v => (statesOf net v).length).prod ≤ 2 ^ 52) (hM : fitBound net ≤ 2 ^ 51) :
    ∃ tables e, cpds net' = .ok tables ∧ Engine.create okName (framesOf tables) = .ok e ∧
      ∀ x₀ : V → S, (∀ v ∈ net.nodes, x₀ v ∈ statesOf net v) → ∀ ev : List (V × S), (ev.map Prod.fst).Nodup →
        (∀ q ∈ ev, q.1 ∈ net.nodes ∧ q.2 ∈ statesOf net q.1) →
        ∃ out, e.query nd ev = .ok out ∧ ReportsNear (statesOf net) net.nodes
          (answerWith (statesOf net) net.nodes (dataJoint a.exact net df par) x₀ ev)
          ((answerBound net.nodes.length (net.nodes.map fun v => (statesOf net v).length).prod + fitBound net) / 2 ^ 51) out := by
  obtain ⟨tables, e, h1, h2, h3, -, h4⟩ := fit_then_query_double hint hE hEne hr hne hdf hess hf hpar hnd hok
  exact ⟨tables, e, h1, h2, fun x₀ hx₀ ev hk hev => h4 x₀ hx₀ ev hk hev _ h3 hN hM⟩

/-- **C112**, for networks without undirected cycles, with a bound in terms of the number of nodes and of the size of the largest
conditional probability table. -/
theorem fit_then_query_double_polytree {int : ℕ → S} (hint : Injective int) {ns : List V} {E : List (V × V)} (hE : IsStructure ns E)
    (hEne : E ≠ []) (hac : (SimpleGraph.fromRel fun u v => (u, v) ∈ E).IsAcyclic)
    {net net' : Net V S Double} (hr : Reach int ns E net) (hne : ∀ v ∈ net.nodes, statesOf net v ≠ [])
    {h h' : Heap V S} {ref : ℕ} {df : DF V S} (hdf : h[ref]? = some df) {a : FitArgs Double}
    (hess : ∀ n, a.ess = some n → 0 < n.val) (hf : fitCpds int net h ref a = (net', h', .ok ()))
    {par : V → List V} (hpar : ∀ v ∈ net.nodes, IsParentList E v (par v))
    {nd : BBN.Nondet V} (hnd : nd.Legal) {okName : V → Bool} (hok : ∀ v ∈ net.nodes, okName v = true) {L : ℕ}
    (hL : ∀ v ∈ net.nodes, (statesOf net v).length * ((par v).map fun p => (statesOf net p).length).prod ≤ L)
    (hN : answerBound net.nodes.length L ≤ 2 ^ 52) (hM : fitBound net ≤ 2 ^ 51) :
    ∃ tables e, cpds net' = .ok tables ∧ Engine.create okName (framesOf tables) = .ok e ∧
      ∀ x₀ : V → S, (∀ v ∈ net.nodes, x₀ v ∈ statesOf net v) → ∀ ev : List (V × S), (ev.map Prod.fst).Nodup →
        (∀ q ∈ ev, q.1 ∈ net.nodes ∧ q.2 ∈ statesOf net q.1) →
        ∃ out, e.query nd ev = .ok out ∧ ReportsNear (statesOf net) net.nodes
          (answerWith (statesOf net) net.nodes (dataJoint a.exact net df par) x₀ ev)
          ((answerBound net.nodes.length L + fitBound net) / 2 ^ 51) out := by
  obtain ⟨tables, e, h1, h2, -, h3, h4⟩ := fit_then_query_double hint hE hEne hr hne hdf hess hf hpar hnd hok
  exact ⟨tables, e, h1, h2, fun x₀ hx₀ ev hk hev => h4 x₀ hx₀ ev hk hev L (h3 hac L hL) hN hM⟩

end

end Verif.Network
