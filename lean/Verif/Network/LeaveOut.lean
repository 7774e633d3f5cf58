import Verif.Network.Equivalent
import Verif.Network.Frequencies
import Verif.BBN.Ancestral
import Verif.BBN.PropsAct

/-!
# C156: nodes that are not ancestors can be left out
-/

namespace Verif.Network

open Verif.BBN (Frame Fitted netNodes cpdsOf domOf massOf Agrees Gives)
open Function

section
variable {V S K : Type} [LinearOrder V] [LinearOrder S] [Field K] [LinearOrder K] [IsStrictOrderedRing K]

/-- Specification: `E₂` is the part of the structure `E` that is left when nodes are left out together with their descendants: all edges into
nodes that are kept are kept. -/
structure LeavesOut (E E₂ : List (V × V)) : Prop where
  edges : ∀ e ∈ E₂, e ∈ E
  parents : ∀ e ∈ E, (∃ e' ∈ E₂, e.2 = e'.1 ∨ e.2 = e'.2) → e ∈ E₂

/-- Specification: the rows of `df₂` are those of `df`, as far as the columns `vs` are concerned. -/
def SameColumns (vs : List V) (df df₂ : DF V S) : Prop :=
  (∀ v ∈ vs, v ∈ df.cols → v ∈ df₂.cols) ∧ List.Forall₂ (fun r r₂ => ∀ v ∈ vs, r₂ v = r v) df.rows df₂.rows

theorem countP_forall₂ {α β : Type} {R : α → β → Prop} {p : α → Bool} {q : β → Bool} {l : List α} {l₂ : List β} (h : List.Forall₂ R l l₂)
    (hpq : ∀ a ∈ l, ∀ b, R a b → p a = q b) : l₂.countP q = l.countP p := by
  induction h with
  | nil => rfl
  | @cons a b l l₂ hab h ih =>
    rw [List.countP_cons, List.countP_cons, ih fun a ha => hpq a (List.mem_cons_of_mem _ ha), hpq a List.mem_cons_self b hab]

theorem observed_leaveOut {net net₂ : Net V S K} (hsub : ∀ v ∈ net₂.nodes, v ∈ net.nodes)
    (hst : ∀ v ∈ net₂.nodes, (statesOf net₂ v).Perm (statesOf net v)) {df df₂ : DF V S} (hdf : SameColumns net₂.nodes df df₂)
    (hrows : ∀ r ∈ df.rows, Known net r) {v : V} (hv : v ∈ net₂.nodes) {ps : List V} (hps : ∀ p ∈ ps, p ∈ net₂.nodes) (s : S) (c : List S) :
    observed net₂ df₂ v ps s c = observed net df v ps s c := by
  refine countP_forall₂ hdf.2 fun r hr r₂ h => ?_
  have h1 : Known net₂ r₂ := by
    intro u hu
    obtain ⟨s, hs, e⟩ := hrows r hr u (hsub u hu)
    exact ⟨s, (hst u hu).mem_iff.2 hs, by rw [h u hu, e]⟩
  have h2 : ps.map r₂ = ps.map r := List.map_congr_left fun p hp => h p (hps p hp)
  simp only [h1, hrows r hr, true_and, h v hv, h2]

/-- **C156**: leave out nodes together with all their descendants.  If fitting the whole network to complete data succeeds, so does fitting the
rest to the same data, with or without the columns of the nodes left out; the tables of the nodes kept are the same, and both engines answer
every query with evidence on the nodes kept alike, as far as these nodes are concerned. -/
theorem leave_out {int : ℕ → S} (hint : Injective int) {ns ns₂ : List V} {E E₂ : List (V × V)} (hE : IsStructure ns E)
    (hE₂ : IsStructure ns₂ E₂) (hEne₂ : E₂ ≠ []) (hout : LeavesOut E E₂) {net net₂ : Net V S K} (hr : Reach int ns E net) (hr₂ : Reach int ns₂ E₂ net₂)
    (hne : ∀ v ∈ net.nodes, statesOf net v ≠ []) (hst : ∀ v ∈ net₂.nodes, (statesOf net₂ v).Perm (statesOf net v))
    {h h' h₂ : Heap V S} {ref ref₂ : ℕ} {df df₂ : DF V S} (hdf : h[ref]? = some df) (hdf₂ : h₂[ref₂]? = some df₂)
    (hrows : ∀ r ∈ df.rows, Known net r) (hcols : SameColumns net₂.nodes df df₂)
    {a : FitArgs K} (hess : ∀ n, a.ess = some n → 0 < n) {net' : Net V S K} (hf : fitCpds int net h ref a = (net', h', .ok ()))
    {okName okName₂ : V → Bool} (hok : ∀ v ∈ net.nodes, okName v = true) (hok₂ : ∀ v ∈ net₂.nodes, okName₂ v = true)
    {nd nd₂ : BBN.Nondet V} (hnd : nd.Legal) (hnd₂ : nd₂.Legal) :
    ∃ net₂' h₂' tables tables₂ e e₂, fitCpds int net₂ h₂ ref₂ a = (net₂', h₂', .ok ()) ∧ cpds net' = .ok tables ∧
      cpds net₂' = .ok tables₂ ∧ BBN.Engine.create okName (framesOf tables) = .ok e ∧
      BBN.Engine.create okName₂ (framesOf tables₂) = .ok e₂ ∧
      (∀ v t t₂, (v, t) ∈ tables → (v, t₂) ∈ tables₂ → t₂.parents = t.parents ∧
        ∀ s ∈ statesOf net v, ∀ ps, IsConfig net t.parents ps → ∃ p, t.entry s ps = some p ∧ t₂.entry s ps = some p) ∧
      ∀ ev : List (V × S), (ev.map Prod.fst).Nodup → (∀ q ∈ ev, q.1 ∈ net₂.nodes ∧ q.2 ∈ statesOf net q.1) →
        ∃ out out₂, e.query nd ev = .ok out ∧ e₂.query nd₂ ev = .ok out₂ ∧
          ∀ v ∈ net₂.nodes, ∀ s ∈ statesOf net v, ∃ p, Gives out v s p ∧ Gives out₂ v s p := by
  have hw := hr.wf hE
  have hw₂ := hr₂.wf hE₂
  have hsub : ∀ v ∈ net₂.nodes, v ∈ net.nodes := by
    intro v hv
    rw [hw₂.nodes] at hv
    obtain ⟨e, he, hve⟩ := mem_nodesOfEdges.1 hv
    rw [hw.nodes]
    exact mem_nodesOfEdges.2 ⟨e, hout.edges e he, hve⟩
  have hEne : E ≠ [] := by
    rintro rfl
    obtain ⟨e, he⟩ := List.exists_mem_of_ne_nil E₂ hEne₂
    simpa using hout.edges e he
  have hnd1 : net.nodes.Nodup := by rw [hw.nodes]; exact nodesOfEdges_nodup E
  have hnd2 : net₂.nodes.Nodup := by rw [hw₂.nodes]; exact nodesOfEdges_nodup E₂
  have hedge : ∀ v ∈ net₂.nodes, ∀ u, (u, v) ∈ E₂ ↔ (u, v) ∈ E := by
    intro v hv u
    refine ⟨hout.edges _, fun he => hout.parents _ he ?_⟩
    rw [hw₂.nodes] at hv
    obtain ⟨e, he, hve⟩ := mem_nodesOfEdges.1 hv
    exact ⟨e, he, hve⟩
  have hne₂ : ∀ v ∈ net₂.nodes, statesOf net₂ v ≠ [] := by
    intro v hv e
    have := (hst v hv).length_eq
    rw [e] at this
    exact hne v (hsub v hv) (List.eq_nil_of_length_eq_zero this.symm)
  obtain ⟨e₀, he₀⟩ := List.exists_mem_of_ne_nil E₂ hEne₂
  have hm₀ : e₀.1 ∈ net₂.nodes := by
    rw [hw₂.nodes]
    exact mem_nodesOfEdges.2 ⟨e₀, he₀, Or.inl rfl⟩
  have hokf : (fitCpds int net h ref a).2.2 = .ok () := by rw [hf]
  rw [fit_ok_iff hE hr hdf] at hokf
  have hokf₂ : (fitCpds int net₂ h₂ ref₂ a).2.2 = .ok () := by
    rw [fit_ok_iff hE₂ hr₂ hdf₂]
    refine ⟨fun e => ?_, fun w hw => hcols.1 w hw (hokf.2.1 w (hsub w hw)), hokf.2.2⟩
    exact hne₂ e₀.1 hm₀ (by rw [statesOf, e])
  have hf₂ : fitCpds int net₂ h₂ ref₂ a = ((fitCpds int net₂ h₂ ref₂ a).1, (fitCpds int net₂ h₂ ref₂ a).2.1, .ok ()) := by
    rw [← hokf₂]
  obtain ⟨tables, hc, n1, f1⟩ := fitted_is_network hint hE hEne hr hne hess hf
  obtain ⟨tables₂, hc₂, n2, f2⟩ := fitted_is_network hint hE₂ hEne₂ hr₂ hne₂ hess hf₂
  have w1 := framesWF hint hE hEne hr hne hf hc
  have hfr : (framesOf tables).map Prod.fst = net.nodes := by rw [← n1, framesOf, List.map_map]; rfl
  have hfr₂ : (framesOf tables₂).map Prod.fst = net₂.nodes := by rw [← n2, framesOf, List.map_map]; rfl
  obtain ⟨e, he, hinv, hcp⟩ := BBN.Engine.create_ok f1 (okName := okName) fun q hq => hok _ (hfr ▸ List.mem_map_of_mem (f := Prod.fst) hq)
  obtain ⟨e₂, he₂, hinv₂, hcp₂⟩ := BBN.Engine.create_ok f2 (okName := okName₂) fun q hq =>
    hok₂ _ (hfr₂ ▸ List.mem_map_of_mem (f := Prod.fst) hq)
  obtain ⟨-, -, -, tables', hc', -, h3⟩ := fit_cpds_correct hint hE hr hne hdf hf
  rw [hc] at hc'
  cases hc'
  obtain ⟨-, -, -, tables₂', hc₂', -, h3₂⟩ := fit_cpds_correct hint hE₂ hr₂ hne₂ hdf₂ hf₂
  rw [hc₂] at hc₂'
  cases hc₂'
  have hpn₂ : ∀ v ∈ net₂.nodes, ∀ l, IsParentList E v l → ∀ p ∈ l, p ∈ net₂.nodes := by
    intro v hv l hl p hp
    rw [hw₂.nodes]
    exact mem_nodesOfEdges.2 ⟨_, (hedge v hv p).2 ((hl.2 p).1 hp), Or.inl rfl⟩
  have hpl : ∀ v ∈ net₂.nodes, ∀ l, IsParentList E v l → IsParentList E₂ v l := fun v hv l hl => ⟨hl.1, fun u => by rw [hl.2, hedge v hv]⟩
  -- the estimates are the same
  have hest : ∀ v ∈ net₂.nodes, ∀ l, IsParentList E v l → ∀ (s : S) (c : List S),
      estimate a (statesOf net₂ v) (l.map fun p => (statesOf net₂ p).length).prod (fun s => observed net₂ df₂ v l s c) s =
        estimate a (statesOf net v) (l.map fun p => (statesOf net p).length).prod (fun s => observed net df v l s c) s := by
    intro v hv l hl s c
    refine estimate_renamed (g := id) a (by simpa using hst v hv) ?_ (fun s => ?_) s
    · exact congrArg List.prod (List.map_congr_left fun p hp => (hst p (hpn₂ v hv l hl p hp)).length_eq)
    · exact observed_leaveOut hsub hst hcols hrows hv (hpn₂ v hv l hl) _ c
  refine ⟨_, _, tables, tables₂, e, e₂, hf₂, hc, hc₂, he, he₂, ?_, fun ev hk hev => ?_⟩
  · intro v t t₂ ht ht₂
    have hv : v ∈ net₂.nodes := n2 ▸ List.mem_map_of_mem (f := Prod.fst) ht₂
    have hpe : t₂.parents = t.parents := parentList_unique (h3₂ v t₂ ht₂).2.1 (hpl v hv _ (h3 v t ht).2.1)
    refine ⟨hpe, fun s hs ps hps => ⟨_, (h3 v t ht).2.2.2.2 s hs ps hps, ?_⟩⟩
    rw [(h3₂ v t₂ ht₂).2.2.2.2 s ((hst v hv).mem_iff.2 hs) ps, hpe, hest v hv _ (h3 v t ht).2.1]
    rw [hpe]
    have hmem := hpn₂ v hv _ (h3 v t ht).2.1
    generalize t.parents = l at hps hmem
    induction hps with
    | nil => exact .nil
    | @cons s' p ps l hs' _ ih =>
      exact .cons ((hst p (hmem p List.mem_cons_self)).mem_iff.2 hs') (ih fun q hq => hmem q (List.mem_cons_of_mem _ hq))
  · obtain ⟨x₀, hx₀⟩ : ∃ x₀ : V → S, ∀ v ∈ net.nodes, x₀ v ∈ statesOf net v := by
      refine ⟨fun v => (statesOf net v).headD (int 0), fun v hv => ?_⟩
      obtain ⟨s, l, hl⟩ := List.exists_cons_of_ne_nil (hne v hv)
      simp [hl]
    have hpar : ∀ v ∈ net.nodes, IsParentList E v (sortedParents E v) := fun v _ => sortedParents_spec hE.edges_nodup v
    have hpar₂ : ∀ v ∈ net₂.nodes, IsParentList E₂ v (sortedParents E v) := fun v hv => hpl v hv _ (hpar v (hsub v hv))
    obtain ⟨hdom₂, hmass₂⟩ := massOf_framesOf hint hE₂ hr₂ hne₂ hdf₂ hf₂ hpar₂ hc₂
    have hdom := w1.dom
    have hxd : ∀ v ∈ (framesOf tables).map Prod.fst, x₀ v ∈ domOf (framesOf tables) v := by
      intro v hv
      rw [hfr] at hv
      rw [hdom v hv]
      exact hx₀ v hv
    have hxd₂ : ∀ v ∈ (framesOf tables₂).map Prod.fst, x₀ v ∈ domOf (framesOf tables₂) v := by
      intro v hv
      rw [hfr₂] at hv
      rw [hdom₂ v hv, (hst v hv).mem_iff]
      exact hx₀ v (hsub v hv)
    have hM : ∀ (A : (V → S) → Prop) [DecidablePred A], (∀ x y : V → S, (∀ v ∈ net₂.nodes, x v = y v) → (A x ↔ A y)) →
        massOf (domOf (framesOf tables)) (netNodes (cpdsOf (framesOf tables))) x₀ A =
          massOf (domOf (framesOf tables₂)) (netNodes (cpdsOf (framesOf tables₂))) x₀ A := by
      intro A _ hA
      have hvars : ((netNodes (cpdsOf (framesOf tables))).filter fun n => n.var ∈ net₂.nodes).map BBN.Node.var =
          net.nodes.filter fun v => v ∈ net₂.nodes := by
        rw [← w1.vars, List.filter_map]
        rfl
      have hperm : (net.nodes.filter fun v => v ∈ net₂.nodes).Perm net₂.nodes := by
        refine (List.perm_ext_iff_of_nodup (hnd1.filter _) hnd2).2 fun v => ?_
        simp only [List.mem_filter, decide_eq_true_eq]
        exact ⟨fun h => h.2, fun h => ⟨hsub v h, h⟩⟩
      rw [hmass₂, BBN.massOf_ancestral f1.wf f1.acyclic f1.states_nodup f1.normalised (by rw [w1.vars, ← hfr]; exact hxd)
        (fun v => v ∈ net₂.nodes) ?_ A hA]
      · rw [dataMass, BBN.massWith_eq_sumOver, ← BBN.sumOver_perm _ hperm, sumOver_states (dom := domOf (framesOf tables)),
          ← BBN.massWith_eq_sumOver]
        · unfold massOf BBN.massWith
          rw [hvars]
          refine congrArg List.sum (List.map_congr_left fun x hx => ?_)
          have hx' : ∀ v ∈ net₂.nodes, x v ∈ statesOf net v := by
            intro v hv
            rw [← hdom v (hsub v hv)]
            exact (BBN.worlds_valid (List.mem_filter.1 hx).1 v).1 (hperm.mem_iff.2 hv)
          unfold BBN.joint dataJoint
          rw [← (hperm.map _).prod_eq, ← hvars, List.map_map]
          refine congrArg List.prod (List.map_congr_left fun n hn => ?_)
          obtain ⟨hn, hv⟩ := List.mem_filter.1 hn
          obtain ⟨⟨v, t⟩, ht, rfl⟩ := mem_netNodes_framesOf.1 hn
          replace hv : v ∈ net₂.nodes := of_decide_eq_true hv
          have hp := parentList_unique (h3 v t ht).2.1 (hpar v (hsub v hv))
          change (t.entry (x v) (t.parents.map x)).getD 0 = _
          rw [(h3 v t ht).2.2.2.2 (x v) (hx' v hv) (t.parents.map x), Option.getD_some, hp]
          · exact (hest v hv _ (hpar v (hsub v hv)) (x v) _).symm
          · rw [IsConfig, List.forall₂_map_left_iff, List.forall₂_same]
            exact fun p hpp => hx' p (hpn₂ v hv _ (h3 v t ht).2.1 p hpp)
        · intro v hv
          have hv := hperm.mem_iff.1 hv
          rw [hdom v (hsub v hv)]
          exact hst v hv
      · intro n hn hv p hp
        obtain ⟨⟨v, t⟩, ht, rfl⟩ := mem_netNodes_framesOf.1 hn
        rcases List.mem_cons.1 hp with rfl | hp
        · exact hv
        · exact hpn₂ v hv _ (h3 v t ht).2.1 p hp
    obtain ⟨out, ho, hrep⟩ := hinv.query_answers hnd f1 (by rw [hcp]; exact f1.connected) hxd hk (by
      intro q hq
      rw [hfr, hdom _ (hsub _ (hev q hq).1)]
      exact ⟨hsub _ (hev q hq).1, (hev q hq).2⟩)
    obtain ⟨out₂, ho₂, hrep₂⟩ := hinv₂.query_answers hnd₂ f2 (by rw [hcp₂]; exact f2.connected) hxd₂ hk (by
      intro q hq
      rw [hfr₂, hdom₂ _ (hev q hq).1, (hst _ (hev q hq).1).mem_iff]
      exact hev q hq)
    refine ⟨out, out₂, ho, ho₂, fun v hv s hs => ⟨_, hrep.gives (by rw [hfr]; exact hsub v hv) (by rw [hdom v (hsub v hv)]; exact hs), ?_⟩⟩
    have hg := hrep₂.gives (by rw [hfr₂]; exact hv) (t := s) (by rw [hdom₂ v hv, (hst v hv).mem_iff]; exact hs)
    have hag : ∀ x y : V → S, (∀ v ∈ net₂.nodes, x v = y v) → (Agrees ev x ↔ Agrees ev y) := fun x y hxy =>
      forall₂_congr fun q hq => by rw [hxy q.1 (hev q hq).1]
    rw [hcp, hM _ hag, hM (fun x => Agrees ev x ∧ x v = s) fun x y hxy => by rw [hag x y hxy, hxy v hv]]
    rw [hcp₂] at hg
    exact hg

end

end Verif.Network
