import Verif.BBN.EngineHeapRep

/-!
# One engine on the heap behaves like the engine as a value
-/

namespace Verif.BBN

section
variable {V S K : Type} [LinearOrder V] [DecidableEq S] [Field K] [LinearOrder K] [IsStrictOrderedRing K]

/-- Who may write to an address: nobody any more, or the network, dictionary or engine of that number. -/
inductive Owner
  | free
  | frozen
  | net (i : ℕ)
  | data (j : ℕ)
  | eng (k : ℕ)
  deriving DecidableEq

/-- The engine `e` on the heap holds the value `E`; only the outer dict of `_cpds` can still change. -/
structure EngAt (own : Ref → Owner) (h : Heap V S K) (k : ℕ) (e : HEngine V) (E : Engine V S K)
    (bn : List (V × Frame V S K)) (N No : Nested V S K) : Prop where
  own_cpds : own e.cpds = .eng k
  cpds : CpdsAt (fun r => own r = .frozen) h e.cpds N
  cpds_rep : NRep E.dom N E.cpds
  own_orig : own e.orig = .frozen
  orig : CpdsAt (fun r => own r = .frozen) h e.orig No
  orig_rep : NRep E.dom No E.orig
  doms : DomainsAt (fun r => own r = .frozen) h e.doms (bn.map fun q => (q.1, q.2.index))
  shape : e = HEngine.shape e.cpds e.orig e.doms E
  inv : E.Inv bn
  good : GoodNet bn

variable {own : Ref → Owner} {h : Heap V S K} {k : ℕ} {e : HEngine V} {E : Engine V S K}
  {bn : List (V × Frame V S K)} {N No : Nested V S K}

theorem EngAt.congr (he : EngAt own h k e E bn N No) {own' : Ref → Owner} {h' : Heap V S K}
    (h1 : ∀ r, own r = .frozen → own' r = .frozen ∧ h'[r]? = h[r]?)
    (h2 : own' e.cpds = .eng k ∧ h'[e.cpds]? = h[e.cpds]?) : EngAt own' h' k e E bn N No where
  own_cpds := h2.1
  cpds := he.cpds.congr h2.2 (fun r hr => (h1 r hr).2) fun r hr => (h1 r hr).1
  cpds_rep := he.cpds_rep
  own_orig := (h1 _ he.own_orig).1
  orig := he.orig.congr (h1 _ he.own_orig).2 (fun r hr => (h1 r hr).2) fun r hr => (h1 r hr).1
  orig_rep := he.orig_rep
  doms := he.doms.congr (fun r hr => (h1 r hr).2) fun r hr => (h1 r hr).1
  shape := he.shape
  inv := he.inv
  good := he.good

omit [IsStrictOrderedRing K] [Field K] [LinearOrder K] [DecidableEq S] in
theorem domainOf_rep {P : Ref → Prop} {r : Ref} (hd : DomainsAt P h r (bn.map fun q => (q.1, q.2.index))) :
    domainOf h r = domOf bn := by
  funext v
  simp only [domainOf, hd.read, domOf]
  rw [lookup_map_snd (fun _ (f : Frame V S K) => f.index)]
  cases bn.lookup v <;> rfl

/-! ### Queries -/

theorem EngAt.callFn (he : EngAt own h k e E bn N No) {n : Node V S K} (hn : n ∈ E.bbn) {xs : List S}
    (hx : List.Forall₂ (fun a s => s ∈ E.dom a) n.args xs) : callFn h e.cpds n.args xs = some (n.fn xs) := by
  have hn' := (he.inv.bbn_perm he.good.1).mem_iff.1 hn
  obtain ⟨⟨v, c⟩, hq, rfl⟩ := List.mem_map.1 hn'
  have hnd : (E.cpds.map Prod.fst).Nodup := by rw [he.inv.vars]; exact he.good.1.nodup
  have hl : E.cpds.lookup v = some c := lookup_of_mem_nodup hnd hq
  have hx' : List.Forall₂ (fun a s => s ∈ E.dom a) (v :: c.parents) xs := hx
  cases hx' with
  | @cons _ s _ ps hs hps =>
    rcases he.cpds_rep.lookup v with ⟨_, h2⟩ | ⟨st, c', h1, h2, h3⟩
    · rw [hl] at h2; cases h2
    · rw [hl] at h2; cases h2
      have hmem : s ∈ st.map Prod.fst := by
        rw [← List.mem_toFinset, h3.states, he.inv.cpd_states he.good.1 hl, List.mem_toFinset, ← he.inv.dom_eq]
        exact hs
      obtain ⟨⟨s', cs⟩, hm, rfl⟩ := List.mem_map.1 hmem
      have hsl : st.lookup s' = some cs := lookup_of_mem_nodup h3.nodup hm
      have hget := (h3.conds _ hm).get ps hps
      simp only [Verif.BBN.callFn, he.cpds.read, cpdFactor, List.head?_cons, List.tail_cons, bind,
        Option.bind_some, h1, hsl]
      exact hget

theorem EngAt.ask (he : EngAt own h k e E bn N No) (nd : Nondet V) (ev : List (V × S)) :
    e.ask nd h ev = E.query nd ev := by
  have hdom : domainOf h e.doms = E.dom := by rw [domainOf_rep he.doms, he.inv.dom_eq]
  have hb : e.bbn = E.bbn.map fun n => (n.var, n.args) := by
    have := he.shape
    rw [this]; rfl
  unfold HEngine.ask
  rw [hdom]
  have hany : (e.bbn.any fun q => (combos E.dom q.2).any fun xs => (Verif.BBN.callFn h e.cpds q.2 xs).isNone) = false := by
    rw [List.any_eq_false]
    intro q hq
    rw [hb] at hq
    obtain ⟨n, hn, rfl⟩ := List.mem_map.1 hq
    rw [Bool.not_eq_true, List.any_eq_false]
    intro xs hxs
    rw [he.callFn hn (mem_combos.1 hxs)]
    simp
  rw [hany]
  simp only [Bool.false_eq_true, if_false]
  have hs : List.Forall₂ (SameNode E.dom) (e.nodes h) E.bbn := by
    unfold HEngine.nodes
    rw [hb, List.map_map, List.forall₂_map_left_iff, List.forall₂_same]
    intro n hn
    refine ⟨rfl, rfl, ?_⟩
    intro xs hxs
    simp only [Function.comp_apply]
    rw [he.callFn hn hxs]
    rfl
  rw [query_same nd hs]
  unfold Engine.query
  obtain ⟨l, hl, hf⟩ := he.cpds
  have hk : l.map Prod.fst = E.cpds.map Prod.fst := by
    rw [← he.cpds_rep.keys]
    clear hl he
    induction hf with
    | nil => rfl
    | cons hab _ ih =>
      simp only [List.map_cons, hab.1, List.cons.injEq, true_and]
      exact ih
  cases Verif.BBN.query nd E.dom E.bbn ev with
  | error err => rfl
  | ok res =>
    simp only [hl, Option.getD_some, bind, Except.bind, pure, Except.pure]
    have := congrArg (List.map fun v => (v, (res.filter (·.1.1 = v)).map fun m => (m.1.2, m.2))) hk
    rw [List.map_map, List.map_map] at this
    exact congrArg Except.ok this

/-- The dictionaries of an answer are dictionaries. -/
theorem EngAt.answer_valid (he : EngAt own h k e E bn N No) {nd : Nondet V} (hnd : nd.Legal) {ev : List (V × S)}
    (hev : (ev.map Prod.fst).Nodup) {out : List (V × List (S × K))} (ho : E.query nd ev = .ok out) :
    ∀ q ∈ out, (q.2.map Prod.fst).Nodup := by
  have hf := he.good.1
  by_cases hc : Connected (netNodes E.cpds)
  swap
  · obtain ⟨err, h'⟩ := he.inv.query_disconnected hnd hf hc ev
    rw [ho] at h'; cases h'
  have hp := he.inv.bbn_perm hf
  have hN : IsNetwork E.dom E.bbn := (he.inv.network hf hc).perm hp.symm
  unfold Engine.query at ho
  cases hq : Verif.BBN.query nd E.dom E.bbn ev with
  | error err => rw [hq] at ho; cases ho
  | ok res =>
    rw [hq] at ho
    have ho : (E.cpds.map fun q => (q.1, (res.filter (·.1.1 = q.1)).map fun m => (m.1.2, m.2))) = out := by
      simpa [bind, Except.bind, pure, Except.pure] using ho
    have hval : validateKeyvals E.dom E.bbn ev = .ok () := by
      unfold Verif.BBN.query at hq
      cases hv : validateKeyvals E.dom E.bbn ev with
      | error err => rw [hv] at hq; cases hq
      | ok u => rfl
    have hgood : GoodEvidence E.dom E.bbn ev := by
      clear hq hev
      induction ev with
      | nil => intro p hp; cases hp
      | cons p ev ih =>
        obtain ⟨a, b⟩ := p
        simp only [validateKeyvals] at hval
        split at hval
        · cases hval
        · rename_i h1
          split at hval
          · cases hval
          · rename_i h2
            intro p hp
            rcases List.mem_cons.1 hp with rfl | hp
            · exact ⟨not_not.1 h1, not_not.1 h2⟩
            · exact ih hval p hp
    have hne : ∀ v ∈ E.bbn.map Node.var, E.dom v ≠ [] := by
      intro v hv
      rw [(hp.map Node.var).mem_iff, netNodes_vars, he.inv.vars] at hv
      obtain ⟨⟨w, f⟩, hw, rfl⟩ := List.mem_map.1 hv
      rw [he.inv.dom_eq]
      simp only [domOf, lookup_of_mem_nodup hf.nodup hw]
      exact he.good.2 _ hw
    have hS : Nonempty S := by
      cases hb : E.bbn with
      | nil => exact absurd hb hN.nonempty
      | cons n l =>
        obtain ⟨s, _, _⟩ := List.exists_cons_of_ne_nil (hne n.var (by rw [hb]; simp))
        exact ⟨s⟩
    have hx₀ : ∃ x₀ : V → S, ∀ v ∈ E.bbn.map Node.var, x₀ v ∈ E.dom v := by
      refine ⟨fun v => (E.dom v).headD hS.some, fun v hv => ?_⟩
      obtain ⟨s, l, hs⟩ := List.exists_cons_of_ne_nil (hne v hv)
      simp [hs]
    obtain ⟨x₀, hx₀⟩ := hx₀
    obtain ⟨dom', hd1, hd2, hd3⟩ := exists_total_dom hN.states_nodup hx₀
    have hN' := hN.congr hd1
    obtain ⟨res', hr1, hr2, _⟩ := query_answer hnd hd2 hd3 hN'.wf hN'.nonempty hN'.connected hN'.nonneg hev
      (hgood.congr hd1)
    rw [query_dom_congr hnd hN.wf hd1, hq] at hr1
    cases hr1
    rw [allStates_congr hd1] at hr2
    intro q hqo
    rw [← ho] at hqo
    obtain ⟨c, hcm, rfl⟩ := List.mem_map.1 hqo
    dsimp only
    rw [List.map_map]
    have hv : c.1 ∈ E.bbn.map Node.var := by
      rw [(hp.map Node.var).mem_iff, netNodes_vars]; exact List.mem_map_of_mem hcm
    have h4 := (hr2.filter fun q => decide (q.1 = c.1)).map Prod.snd
    rw [allStates_filter hN.wf.nodup hv] at h4
    rw [List.filter_map, List.map_map] at h4
    have hnd' : (E.dom c.1).Nodup := by
      obtain ⟨n, hn, hnv⟩ := List.mem_map.1 hv
      rw [← hnv]; exact hN.states_nodup n hn
    exact h4.nodup_iff.2 hnd'

/-! ### Interventions -/

omit [LinearOrder K] [IsStrictOrderedRing K] in
theorem ofList_sum {d : List (S × K)} (hd : (d.map Prod.fst).Nodup) :
    ∑ s ∈ (Dist.ofList d : Dist S K).keys, (Dist.ofList d : Dist S K).val s = (d.map Prod.snd).sum := by
  simp only [Dist.ofList]
  rw [List.sum_toFinset _ hd, List.map_map]
  congr 1
  apply List.map_congr_left
  intro q hq
  simp [lookup_of_mem_nodup hd hq]

omit [LinearOrder K] [IsStrictOrderedRing K] in
theorem ofList_val {d : List (S × K)} (hd : (d.map Prod.fst).Nodup) {q : S × K} (hq : q ∈ d) :
    q.1 ∈ (Dist.ofList d : Dist S K).keys ∧ (Dist.ofList d : Dist S K).val q.1 = q.2 := by
  refine ⟨?_, ?_⟩
  · simp only [Dist.ofList, List.mem_toFinset]; exact List.mem_map_of_mem hq
  · simp [Dist.ofList, lookup_of_mem_nodup hd hq]

omit [LinearOrder K] [IsStrictOrderedRing K] in
theorem ofList_key {d : List (S × K)} (hd : (d.map Prod.fst).Nodup) {s : S} (hs : s ∈ (Dist.ofList d : Dist S K).keys) :
    (s, (Dist.ofList d : Dist S K).val s) ∈ d := by
  simp only [Dist.ofList, List.mem_toFinset] at hs
  obtain ⟨q, hq, rfl⟩ := List.mem_map.1 hs
  rw [(ofList_val hd hq).2]
  exact hq

omit [IsStrictOrderedRing K] in
/-- `_do` looks at the numbers of the given states only. -/
theorem Engine.do_congr (E : Engine V S K) (v : V) {d d' : Dist S K} (hk : d.keys = d'.keys)
    (hv : ∀ s ∈ d.keys, d.val s = d'.val s) : E.do_ v d = E.do_ v d' := by
  have h1 : ∑ s ∈ d.keys, d.val s = ∑ s ∈ d'.keys, d'.val s := by
    rw [← hk]; exact Finset.sum_congr rfl hv
  have h2 : ((∃ s ∈ d.keys, 1 < d.val s) ∨ ∃ s ∈ d.keys, d.val s < 0) ↔
      ((∃ s ∈ d'.keys, 1 < d'.val s) ∨ ∃ s ∈ d'.keys, d'.val s < 0) := by
    rw [← hk]
    constructor
    · rintro (⟨s, hs, h⟩ | ⟨s, hs, h⟩)
      · exact Or.inl ⟨s, hs, hv s hs ▸ h⟩
      · exact Or.inr ⟨s, hs, hv s hs ▸ h⟩
    · rintro (⟨s, hs, h⟩ | ⟨s, hs, h⟩)
      · exact Or.inl ⟨s, hs, (hv s hs).symm ▸ h⟩
      · exact Or.inr ⟨s, hs, (hv s hs).symm ▸ h⟩
  have h3 : interventionCpd V d = interventionCpd V d' := by
    unfold interventionCpd
    simp only [Cpd.mk.injEq, true_and, hk]
    funext s _
    by_cases hs : s ∈ d'.keys
    · rw [if_pos hs, if_pos hs, hv s (hk ▸ hs)]
    · rw [if_neg hs, if_neg hs]
  rw [hk] at h1 h2
  unfold Engine.do_
  simp only [hk, h3, h1, h2]

omit [IsStrictOrderedRing K] [Field K] [LinearOrder K] in
/-- Assigning a dict of states to an entry of `_cpds`. -/
theorem setItem_rep {P : Ref → Prop} {dom : V → List S} {h : Heap V S K} {c : Ref} {N : Nested V S K}
    (hc : CpdsAt P h c N) (hPc : ¬ P c) {cpds : List (V × Cpd V S K)} (hr : NRep dom N cpds) {v : V} (hv : v ∈ cpds.map Prod.fst)
    {r : Ref} {st : List (S × List (Key V S × K))} (hs : StatesAt P h r st) {cp : Cpd V S K} (hst : StRep dom st cp) :
    (∀ r', r' ≠ c → (setItem h c v r)[r']? = h[r']?) ∧ (setItem h c v r).length = h.length ∧
      ∃ N', CpdsAt P (setItem h c v r) c N' ∧ NRep dom N' (setCpd cpds v cp) := by
  obtain ⟨l, h1, h2⟩ := hc
  have hkeys : l.map Prod.fst = cpds.map Prod.fst := by
    rw [← hr.keys]
    clear h1 hr
    induction h2 with
    | nil => rfl
    | cons hab _ ih =>
      simp only [List.map_cons, hab.1, List.cons.injEq, true_and]
      exact ih
  have hset : setItem h c v r = h.set c (.cpds (l.map fun q => if q.1 = v then (v, r) else q)) := by
    unfold setItem
    rw [h1]
    simp only
    rw [if_pos (hkeys ▸ hv)]
  have hag : ∀ r', r' ≠ c → (setItem h c v r)[r']? = h[r']? := by
    intro r' hr'
    rw [hset, List.getElem?_set_ne (Ne.symm hr')]
  refine ⟨hag, by rw [hset, List.length_set], N.map fun q => if q.1 = v then (v, st) else q, ?_, hr.set v hst⟩
  have hP : ∀ r', P r' → (setItem h c v r)[r']? = h[r']? := fun r' hr' => hag r' fun he => hPc (he ▸ hr')
  refine ⟨l.map fun q => if q.1 = v then (v, r) else q, ?_, ?_⟩
  · unfold getCpds
    rw [hset, List.getElem?_set_self (getCpds_lt h1)]
  · rw [List.forall₂_map_left_iff, List.forall₂_map_right_iff]
    refine h2.imp fun q n hab => ?_
    rw [← hab.1]
    split
    · exact ⟨rfl, hs.congr hP fun _ h => h⟩
    · exact ⟨hab.1, hab.2.congr hP fun _ h => h⟩

omit [LinearOrder K] [IsStrictOrderedRing K] in
theorem Engine.generate_fields {E E' : Engine V S K} {r : Except Err Unit} (hg : E.generate = (E', r)) :
    E'.dom = E.dom ∧ E'.cpds = E.cpds ∧ E'.orig = E.orig := by
  unfold Engine.generate at hg
  simp only at hg
  split at hg <;> (cases hg; exact ⟨rfl, rfl, rfl⟩)

/-- Assigning a legal table to an entry of `_cpds` on the heap. -/
theorem EngAt.assign (he : EngAt own h k e E bn N No) {own' : Ref → Owner} {h' : Heap V S K}
    (hag : ∀ r, own r = .frozen → own' r = .frozen ∧ h'[r]? = h[r]?)
    (hag' : own' e.cpds = .eng k ∧ h'[e.cpds]? = h[e.cpds]?)
    {v : V} {r : Ref} {st : List (S × List (Key V S × K))} (hs : StatesAt (fun r => own' r = .frozen) h' r st)
    {c : Cpd V S K} (hst : StRep E.dom st c)
    (hc : (v, c) ∈ E.orig ∨ ∃ c₀, (v, c₀) ∈ E.orig ∧ ∃ d : Dist S K, d.IsDist c₀.states ∧ c = interventionCpd V d) :
    (∀ r', r' ≠ e.cpds → (setItem h' e.cpds v r)[r']? = h'[r']?) ∧ (setItem h' e.cpds v r).length = h'.length ∧
    ∃ E' e', ({ E with cpds := setCpd E.cpds v c } : Engine V S K).generate = (E', .ok ()) ∧
      HEngine.generate (setItem h' e.cpds v r) e = (e', .ok ()) ∧ e'.cpds = e.cpds ∧
      ∃ N', EngAt own' (setItem h' e.cpds v r) k e' E' bn N' No := by
  have he' := he.congr hag hag'
  have hv : v ∈ E.cpds.map Prod.fst := by
    rw [he.inv.vars, ← cpdsOf_vars, ← he.inv.orig_eq]
    rcases hc with hc | ⟨c₀, hc, _⟩ <;> exact List.mem_map_of_mem (f := Prod.fst) hc
  have hPc : ¬ (own' e.cpds = .frozen) := by rw [hag'.1]; exact fun h => by cases h
  obtain ⟨h1, hlen, N', h2, h3⟩ := setItem_rep he'.cpds hPc he.cpds_rep hv hs hst
  obtain ⟨E', hg, hinv, hcp⟩ := he.inv.assign he.good.1 hc
  obtain ⟨f1, f2, f3⟩ := Engine.generate_fields hg
  have hgen := generate_rep (dom := E.dom) (e := e) (c := e.cpds) (o := e.orig) (d := e.doms) ⟨rfl, rfl, rfl⟩ h2
    (E := { E with cpds := setCpd E.cpds v c }) h3 hg
  refine ⟨h1, hlen, E', _, hg, hgen, rfl, N', ?_⟩
  have hP : ∀ r', own' r' = .frozen → (setItem h' e.cpds v r)[r']? = h'[r']? :=
    fun r' hr' => h1 r' fun heq => hPc (heq ▸ hr')
  exact
    { own_cpds := hag'.1
      cpds := h2
      cpds_rep := by rw [f1, f2]; exact h3
      own_orig := he'.own_orig
      orig := he'.orig.congr (hP _ he'.own_orig) hP fun _ h => h
      orig_rep := by rw [f1, f3]; exact he.orig_rep
      doms := he'.doms.congr hP fun _ h => h
      shape := rfl
      inv := hinv
      good := he.good }

/-- What a mutating operation on engine `k` does to the heap: new objects, which nobody changes any more, and
writes to the outer dict of the engine. -/
structure Touches (own own' : Ref → Owner) (k : ℕ) (h h' : Heap V S K) : Prop where
  len : h.length ≤ h'.length
  old : ∀ r, r < h.length → own' r = own r
  new : ∀ r, h.length ≤ r → r < h'.length → own' r = .frozen
  free : ∀ r, h'.length ≤ r → own' r = .free
  same : ∀ r, r < h.length → own r ≠ .eng k → h'[r]? = h[r]?

theorem Touches.refl (hfree : ∀ r, h.length ≤ r → own r = .free) : Touches own own k h h where
  len := le_rfl
  old := fun _ _ => rfl
  new := fun _ h1 h2 => absurd h2 (Nat.not_lt.2 h1)
  free := hfree
  same := fun _ _ _ => rfl

theorem EngAt.reset (he : EngAt own h k e E bn N No) (hfree : ∀ r, h.length ≤ r → own r = .free) (v : V) :
    ∃ h' e' E' out N', e.resetDo h v = (h', e', out) ∧ E.resetDo v = (E', out) ∧ e'.cpds = e.cpds ∧
      Touches own own k h h' ∧ EngAt own h' k e' E' bn N' No := by
  obtain ⟨l, hl, hf⟩ := he.orig
  have hread : readEach (readStates h) l = some No :=
    readEach_forall₂.2 (hf.imp fun _ _ hab => ⟨hab.1, hab.2.read⟩)
  rcases readEach_lookup hread v with ⟨h1, h2⟩ | ⟨r, st, h1, h2, h3⟩
  · rcases he.orig_rep.lookup v with ⟨_, h4⟩ | ⟨st, c, h3, _, _⟩
    · refine ⟨h, e, E, .error .keyError, N, ?_, ?_, rfl, .refl hfree, he⟩
      · simp only [HEngine.resetDo, hl, Option.bind_some, h1]
      · simp only [Engine.resetDo, h4]
    · rw [h2] at h3; cases h3
  · rcases he.orig_rep.lookup v with ⟨h4, _⟩ | ⟨st', c, h4, h5, h6⟩
    · rw [h2] at h4; cases h4
    · rw [h2] at h4; cases h4
      have hs : StatesAt (fun r => own r = .frozen) h r st := by
        have hmem := lookup_mem h1
        obtain ⟨i, hi, hie⟩ := List.mem_iff_getElem.1 hmem
        have hi' : i < No.length := by rw [← hf.length_eq]; exact hi
        have := (List.forall₂_iff_get.1 hf).2 i hi hi'
        simp only [List.get_eq_getElem, hie] at this
        have h7 := this.2.read
        rw [h3] at h7
        have h8 : st = (No[i]'hi').2 := Option.some.inj h7
        rw [h8]; exact this.2
      obtain ⟨g1, g2, E', e', g3, g4, g5, N', g6⟩ := he.assign (own' := own) (h' := h) (fun r hr => ⟨hr, rfl⟩)
        ⟨he.own_cpds, rfl⟩ hs h6 (Or.inl (lookup_mem h5))
      refine ⟨setItem h e.cpds v r, e', E', .ok (), N', ?_, ?_, g5, ?_, g6⟩
      · simp only [HEngine.resetDo, hl, Option.bind_some, h1, g4]
      · simp only [Engine.resetDo, h5, g3]
      · refine ⟨g2.ge, fun _ _ => rfl, fun r' h7 h8 => ?_, fun r' h7 => hfree r' (g2 ▸ h7), fun r' _ h8 => ?_⟩
        · rw [g2] at h8; exact absurd h8 (Nat.not_lt.2 h7)
        · exact g1 r' fun heq => h8 (heq ▸ he.own_cpds)

/-- What `_do` with the numbers `d` does on the heap. -/
theorem EngAt.do_ (he : EngAt own h k e E bn N No) (hfree : ∀ r, h.length ≤ r → own r = .free) (v : V)
    {d : List (S × K)} (hd : (d.map Prod.fst).Nodup) :
    (∃ err, HEngine.do_ h e v d = (h, .error err) ∧ E.do_ v (.ofList d) = (E, .error err)) ∨
    ∃ h' own' E₁ E' e' N', HEngine.do_ h e v d = (h', .ok ()) ∧ E.do_ v (.ofList d) = (E₁, .ok ()) ∧
      E₁.generate = (E', .ok ()) ∧ HEngine.generate h' e = (e', .ok ()) ∧ e'.cpds = e.cpds ∧
      Touches own own' k h h' ∧ EngAt own' h' k e' E' bn N' No := by
  by_cases c1 : (d.map Prod.snd).sum = 1
  swap
  · left
    refine ⟨.valueError, ?_, ?_⟩
    · unfold HEngine.do_; rw [if_pos c1]
    · unfold Engine.do_; rw [if_pos (by rw [ofList_sum hd]; exact c1)]
  by_cases c2 : (∃ q ∈ d, 1 < q.2) ∨ ∃ q ∈ d, q.2 < 0
  · left
    refine ⟨.valueError, ?_, ?_⟩
    · unfold HEngine.do_; rw [if_neg (not_not.2 c1), if_pos c2]
    · unfold Engine.do_
      rw [if_neg (by rw [ofList_sum hd]; exact not_not.2 c1), if_pos]
      rcases c2 with ⟨q, hq, hlt⟩ | ⟨q, hq, hlt⟩
      · exact Or.inl ⟨q.1, (ofList_val hd hq).1, by rw [(ofList_val hd hq).2]; exact hlt⟩
      · exact Or.inr ⟨q.1, (ofList_val hd hq).1, by rw [(ofList_val hd hq).2]; exact hlt⟩
  have c2' : ¬ ((∃ s ∈ (Dist.ofList d : Dist S K).keys, 1 < (Dist.ofList d : Dist S K).val s) ∨
      ∃ s ∈ (Dist.ofList d : Dist S K).keys, (Dist.ofList d : Dist S K).val s < 0) := by
    rintro (⟨s, hs, hlt⟩ | ⟨s, hs, hlt⟩)
    · exact c2 (Or.inl ⟨_, ofList_key hd hs, hlt⟩)
    · exact c2 (Or.inr ⟨_, ofList_key hd hs, hlt⟩)
  have e1 : HEngine.do_ h e v d =
      match (getCpds h e.orig).bind (·.lookup v) with
      | none => (h, .error .keyError)
      | some o =>
        match getStates h o with
        | none => (h, .error .attributeError)
        | some st =>
          if (d.map Prod.fst).toFinset ≠ (st.map Prod.fst).toFinset then (h, .error .valueError)
          else
            let (h₁, r) := newStates h (d.map fun q => (q.1, [([], q.2)]))
            (setItem h₁ e.cpds v r, .ok ()) := by
    unfold HEngine.do_
    rw [if_neg (not_not.2 c1), if_neg c2]
    rfl
  have e2 : E.do_ v (.ofList d) =
      match E.orig.lookup v with
      | none => (E, .error .keyError)
      | some c =>
        if (Dist.ofList d : Dist S K).keys ≠ c.states then (E, .error .valueError)
        else ({ E with cpds := setCpd E.cpds v (interventionCpd V (.ofList d)) }, .ok ()) := by
    unfold Engine.do_
    rw [if_neg (by rw [ofList_sum hd]; exact not_not.2 c1), if_neg c2']
    rfl
  rw [e1, e2]
  obtain ⟨l, hl, hf⟩ := he.orig
  have hread : readEach (readStates h) l = some No :=
    readEach_forall₂.2 (hf.imp fun _ _ hab => ⟨hab.1, hab.2.read⟩)
  rw [hl, Option.bind_some]
  rcases readEach_lookup hread v with ⟨h1, h2⟩ | ⟨r, st, h1, h2, h3⟩
  · left
    rcases he.orig_rep.lookup v with ⟨_, h4⟩ | ⟨st, c, h3, _, _⟩
    · exact ⟨.keyError, by rw [h1], by rw [h4]⟩
    · rw [h2] at h3; cases h3
  · rcases he.orig_rep.lookup v with ⟨h4, _⟩ | ⟨st', c, h4, h5, h6⟩
    · rw [h2] at h4; cases h4
    · rw [h2] at h4; cases h4
      rw [h1, h5]
      simp only
      obtain ⟨sl, hsl, hsr⟩ : ∃ sl, getStates h r = some sl ∧ readEach (getConds h) sl = some st := by
        unfold readStates at h3
        cases hg : getStates h r with
        | none => rw [hg] at h3; cases h3
        | some sl => rw [hg] at h3; exact ⟨sl, rfl, h3⟩
      rw [hsl]
      simp only
      have hkeys : (sl.map Prod.fst).toFinset = c.states := by rw [readEach_keys hsr, h6.states]
      rw [hkeys]
      have hk2 : (d.map Prod.fst).toFinset = (Dist.ofList d : Dist S K).keys := rfl
      rw [hk2]
      by_cases c3 : (Dist.ofList d : Dist S K).keys = c.states
      swap
      · left
        exact ⟨.valueError, by rw [if_pos c3], by rw [if_pos c3]⟩
      right
      rw [if_neg (not_not.2 c3), if_neg (not_not.2 c3)]
      have hne : d ≠ [] := by
        rintro rfl
        simp at c1
      obtain ⟨t, ht, hs⟩ := newStates_spec h.length h (d.map fun q => (q.1, [(([] : Key V S), q.2)])) le_rfl
      set h₁ := (newStates h (d.map fun q => (q.1, [(([] : Key V S), q.2)]))).1 with hh₁
      set ro := (newStates h (d.map fun q => (q.1, [(([] : Key V S), q.2)]))).2 with hro
      have hlen : h.length ≤ h₁.length := by rw [ht, List.length_append]; exact Nat.le_add_right _ _
      let own' : Ref → Owner := fun r => if r < h.length then own r else if r < h₁.length then .frozen else .free
      have ho1 : ∀ r, r < h.length → own' r = own r := fun r hr => if_pos hr
      have ho2 : ∀ r, h.length ≤ r → r < h₁.length → own' r = .frozen := fun r hr hr' => by
        simp only [own', if_neg (Nat.not_lt.2 hr), if_pos hr']
      have ho3 : ∀ r, h₁.length ≤ r → own' r = .free := fun r hr => by
        simp only [own', if_neg (Nat.not_lt.2 (le_trans hlen hr)), if_neg (Nat.not_lt.2 hr)]
      have hlt : ∀ r, own r ≠ .free → r < h.length := fun r hr => by
        by_contra hc
        exact hr (hfree r (Nat.le_of_not_lt hc))
      have hsame : ∀ r, r < h.length → h₁[r]? = h[r]? := fun r hr => by
        rw [ht]; exact getElem?_append_old hr
      have hlc := hlt e.cpds (by rw [he.own_cpds]; exact fun h => by cases h)
      have hdist : (Dist.ofList d : Dist S K).IsDist c.states := by
        refine ⟨c3, by rw [ofList_sum hd]; exact c1, fun s hs => ?_⟩
        by_contra hc
        exact c2' (Or.inr ⟨s, hs, lt_of_not_ge hc⟩)
      obtain ⟨g1, g2, E', e', g3, g4, g5, N', g6⟩ := he.assign (own' := own') (h' := h₁)
        (fun r hr => by
          have := hlt r (by rw [hr]; exact fun h => by cases h)
          exact ⟨by rw [ho1 r this]; exact hr, hsame r this⟩)
        ⟨by rw [ho1 _ hlc]; exact he.own_cpds, hsame _ hlc⟩ (v := v) (r := ro)
        (hs.congr (fun _ _ => rfl) fun r hr => ho2 r hr.1 hr.2)
        (interventionCpd_rep (V := V) (dom := E.dom) hd hne)
        (Or.inr ⟨c, lookup_mem h5, _, hdist, rfl⟩)
      refine ⟨setItem h₁ e.cpds v ro, own', { E with cpds := setCpd E.cpds v (interventionCpd V (.ofList d)) }, E', e', N',
        rfl, rfl, g3, g4, g5, ⟨?_, ho1, ?_, ?_, ?_⟩, g6⟩
      · rw [g2]; exact hlen
      · intro r hr hr'
        rw [g2] at hr'
        exact ho2 r hr hr'
      · intro r hr
        rw [g2] at hr
        exact ho3 r hr
      · intro r hr hne
        rw [g1 r fun heq => hne (heq ▸ he.own_cpds), hsame r hr]

/-- The same argument of `do_intervention`. -/
inductive SameArg : HArg S K → DoArg S K → Prop
  | label (b : Bool) (s : S) : SameArg (.label b s) (.label b s)
  | dict {d : List (S × K)} (hd : (d.map Prod.fst).Nodup) : SameArg (.dict d) (.dist (.ofList d))

theorem EngAt.intervene (he : EngAt own h k e E bn N No) (hfree : ∀ r, h.length ≤ r → own r = .free) (v : V)
    {a : HArg S K} {b : DoArg S K} (hab : SameArg a b) :
    ∃ h' own' e' E' out N', e.doIntervention h v a = (h', e', out) ∧ E.doIntervention v b = (E', out) ∧
      e'.cpds = e.cpds ∧ Touches own own' k h h' ∧ EngAt own' h' k e' E' bn N' No := by
  have hfns : (e.fns.any fun f => decide (v ∈ f.2.tail)) = E.fns.any fun f => decide (v ∈ f.2.args.tail) := by
    have := he.shape
    rw [this]
    simp only [HEngine.shape, List.any_map, Function.comp_def]
  by_cases c0 : (E.fns.any fun f => decide (v ∈ f.2.args.tail)) = true
  swap
  · refine ⟨h, own, e, E, .error .valueError, N, ?_, ?_, rfl, .refl hfree, he⟩
    · unfold HEngine.doIntervention
      rw [hfns, if_pos (by simpa using c0)]
    · unfold Engine.doIntervention
      rw [if_pos (by simpa using c0)]
  -- the rest, for the contents of a dict
  have key : ∀ {d : List (S × K)}, (d.map Prod.fst).Nodup →
      ∃ h' own' e' E' out N', (match HEngine.do_ h e v d with
        | (h₁, .error err) => (h₁, e, .error err)
        | (h₁, .ok ()) =>
          let (e', r) := HEngine.generate h₁ e
          (h₁, e', r)) = (h', e', out) ∧ (match E.do_ v (.ofList d) with
        | (e, .error err) => (e, .error err)
        | (e, .ok ()) => e.generate) = (E', out) ∧
        e'.cpds = e.cpds ∧ Touches own own' k h h' ∧ EngAt own' h' k e' E' bn N' No := by
    intro d hd
    rcases he.do_ hfree v hd with ⟨err, g1, g2⟩ | ⟨h', own', E₁, E', e', N', g1, g2, g3, g4, g5, g6, g7⟩
    · exact ⟨h, own, e, E, .error err, N, by rw [g1], by rw [g2], rfl, .refl hfree, he⟩
    · refine ⟨h', own', e', E', .ok (), N', ?_, ?_, g5, g6, g7⟩
      · rw [g1]; simp only [g4]
      · rw [g2]; simp only [g3]
  unfold HEngine.doIntervention Engine.doIntervention
  rw [hfns, if_neg (by simpa using c0), if_neg (by simpa using c0)]
  cases hab with
  | dict hd => exact key hd
  | label b s =>
    cases b with
    | false => exact ⟨h, own, e, E, .error .attributeError, N, rfl, rfl, rfl, .refl hfree, he⟩
    | true =>
      obtain ⟨l, hl, hf⟩ := he.cpds
      have hread : readEach (readStates h) l = some N :=
        readEach_forall₂.2 (hf.imp fun _ _ hab => ⟨hab.1, hab.2.read⟩)
      rw [hl, Option.bind_some]
      rcases readEach_lookup hread v with ⟨h1, h2⟩ | ⟨r, st, h1, h2, h3⟩
      · rcases he.cpds_rep.lookup v with ⟨_, h4⟩ | ⟨st, c, h3, _, _⟩
        · refine ⟨h, own, e, E, .error .keyError, N, ?_, ?_, rfl, .refl hfree, he⟩
          · rw [h1]; rfl
          · simp only [h4]
        · rw [h2] at h3; cases h3
      · rcases he.cpds_rep.lookup v with ⟨h4, _⟩ | ⟨st', c, h4, h5, h6⟩
        · rw [h2] at h4; cases h4
        · rw [h2] at h4; cases h4
          obtain ⟨sl, hsl, hsr⟩ : ∃ sl, getStates h r = some sl ∧ readEach (getConds h) sl = some st := by
            unfold readStates at h3
            cases hg : getStates h r with
            | none => rw [hg] at h3; cases h3
            | some sl => rw [hg] at h3; exact ⟨sl, rfl, h3⟩
          rw [h1, Option.bind_some, hsl]
          simp only [h5]
          have hkn : ((sl.map fun q => (q.1, if q.1 = s then (1 : K) else 0)).map Prod.fst) = st.map Prod.fst := by
            rw [List.map_map, ← readEach_keys hsr]; rfl
          have hdn : ((sl.map fun q => (q.1, if q.1 = s then (1 : K) else 0)).map Prod.fst).Nodup := by
            rw [hkn]; exact h6.nodup
          have hdo : E.do_ v ⟨c.states, fun t => if t = s then 1 else 0⟩ =
              E.do_ v (.ofList (sl.map fun q => (q.1, if q.1 = s then (1 : K) else 0))) := by
            refine E.do_congr v ?_ ?_
            · show c.states = _
              rw [← h6.states, ← hkn]; rfl
            · intro t ht
              have ht' : t ∈ (Dist.ofList (sl.map fun q => (q.1, if q.1 = s then (1 : K) else 0)) : Dist S K).keys := by
                show t ∈ _
                simp only [Dist.ofList]
                rw [hkn, h6.states]; exact ht
              have hm := ofList_key hdn ht'
              obtain ⟨q, _, hq⟩ := List.mem_map.1 hm
              simp only [Prod.mk.injEq] at hq
              rw [← hq.2, ← hq.1]
          rw [hdo]
          exact key hdn

end

end Verif.BBN
