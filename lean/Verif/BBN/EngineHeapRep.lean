import Verif.BBN.EngineHeapLemmas

/-!
# Nested dictionaries and conditional probability tables
-/

namespace Verif.BBN

section
variable {V S K : Type} [LinearOrder V] [DecidableEq S]

/-- A dict of conditions holds the probabilities `p` given the parents `ps`. -/
structure CondRep (dom : V → List S) (ps : List V) (p : List S → K) (cs : List (Key V S × K)) : Prop where
  first : ∃ k v rest, cs = (k, v) :: rest ∧ k.map Prod.fst = ps
  get : ∀ xs, List.Forall₂ (fun a s => s ∈ dom a) ps xs → cs.lookup (ps.zip xs) = some (p xs)

/-- A dict of states holds a conditional probability table. -/
structure StRep (dom : V → List S) (st : List (S × List (Key V S × K))) (c : Cpd V S K) : Prop where
  nodup : (st.map Prod.fst).Nodup
  states : (st.map Prod.fst).toFinset = c.states
  nonempty : st ≠ []
  conds : ∀ q ∈ st, CondRep dom c.parents (c.p q.1) q.2

/-- A nested dict holds a list of tables. -/
abbrev NRep (dom : V → List S) (N : Nested V S K) (cpds : List (V × Cpd V S K)) : Prop :=
  List.Forall₂ (fun n c => n.1 = c.1 ∧ StRep dom n.2 c.2) N cpds

variable {dom : V → List S}

theorem NRep.keys {N : Nested V S K} {cpds : List (V × Cpd V S K)} (h : NRep dom N cpds) :
    N.map Prod.fst = cpds.map Prod.fst := by
  induction h with
  | nil => rfl
  | cons hab _ ih => simp [hab.1, ih]

theorem NRep.lookup {N : Nested V S K} {cpds : List (V × Cpd V S K)} (h : NRep dom N cpds) (v : V) :
    (N.lookup v = none ∧ cpds.lookup v = none) ∨
      ∃ st c, N.lookup v = some st ∧ cpds.lookup v = some c ∧ StRep dom st c := by
  induction h with
  | nil => exact Or.inl ⟨rfl, rfl⟩
  | @cons n c N cpds hab _ ih =>
    obtain ⟨x, st⟩ := n
    obtain ⟨y, c⟩ := c
    obtain ⟨h1, h2⟩ := hab
    simp only at h1 h2
    subst h1
    simp only [List.lookup_cons]
    cases v == x
    · exact ih
    · exact Or.inr ⟨st, c, rfl, rfl, h2⟩

theorem NRep.set {N : Nested V S K} {cpds : List (V × Cpd V S K)} (h : NRep dom N cpds) (v : V)
    {st : List (S × List (Key V S × K))} {c : Cpd V S K} (hs : StRep dom st c) :
    NRep dom (N.map fun q => if q.1 = v then (v, st) else q) (setCpd cpds v c) := by
  unfold setCpd
  induction h with
  | nil => exact .nil
  | @cons n c' N cpds hab _ ih =>
    simp only [List.map_cons]
    refine .cons ?_ ih
    rw [hab.1]
    split
    · exact ⟨rfl, hs⟩
    · exact hab

/-! ### The table of an intervention -/

theorem interventionCpd_rep [Field K] [LinearOrder K] {d : List (S × K)} (hd : (d.map Prod.fst).Nodup) (hne : d ≠ []) :
    StRep dom (d.map fun q => (q.1, [(([] : Key V S), q.2)])) (interventionCpd V (Dist.ofList d)) where
  nodup := by simpa [List.map_map, Function.comp_def] using hd
  states := by simp [interventionCpd, Dist.ofList, List.map_map, Function.comp_def]
  nonempty := by simpa using hne
  conds := by
    intro q hq
    obtain ⟨p, hp, rfl⟩ := List.mem_map.1 hq
    refine ⟨⟨[], p.2, [], rfl, rfl⟩, ?_⟩
    intro xs hxs
    cases hxs
    have hmem : p.1 ∈ (Dist.ofList d : Dist S K).keys := by
      simp only [Dist.ofList, List.mem_toFinset]
      exact List.mem_map_of_mem hp
    simp only [interventionCpd, if_pos hmem]
    have : d.lookup p.1 = some p.2 := lookup_of_mem_nodup hd hp
    simp [Dist.ofList, this]

/-! ### The tables of a network -/

theorem combos_ne_nil {vs : List V} (h : ∀ v ∈ vs, dom v ≠ []) : combos dom vs ≠ [] := by
  induction vs with
  | nil => simp [combos]
  | cons v vs ih =>
    obtain ⟨s, l, hs⟩ := List.exists_cons_of_ne_nil (h v List.mem_cons_self)
    obtain ⟨c, l', hc⟩ := List.exists_cons_of_ne_nil (ih fun w hw => h w (List.mem_cons_of_mem _ hw))
    simp [combos, hs, hc]

theorem mem_combos {vs : List V} {xs : List S} :
    xs ∈ combos dom vs ↔ List.Forall₂ (fun a s => s ∈ dom a) vs xs := by
  induction vs generalizing xs with
  | nil => simp [combos]
  | cons v vs ih =>
    simp only [combos, List.mem_flatMap, List.mem_map]
    constructor
    · rintro ⟨s, hs, ys, hys, rfl⟩
      exact .cons hs (ih.1 hys)
    · intro h
      cases h with
      | cons hs hl => exact ⟨_, hs, _, ih.2 hl, rfl⟩

theorem lookup_zip {vs : List V} {l : List (List S)} (hl : ∀ ps ∈ l, ps.length = vs.length) (p : List S → K)
    {xs : List S} (hx : xs ∈ l) :
    (l.map fun ps => (vs.zip ps, p ps)).lookup (vs.zip xs) = some (p xs) := by
  induction l with
  | nil => cases hx
  | cons ps l ih =>
    simp only [List.map_cons, List.lookup_cons]
    by_cases he : ps = xs
    · subst he; simp
    · have hne : vs.zip xs ≠ vs.zip ps := by
        intro hz
        have := congrArg (List.map Prod.snd) hz
        rw [List.map_snd_zip (hl xs hx).le,
          List.map_snd_zip (hl ps List.mem_cons_self).le] at this
        exact he this.symm
      have : (vs.zip xs == vs.zip ps) = false := by simpa using hne
      rw [this]
      exact ih (fun q hq => hl q (List.mem_cons_of_mem _ hq)) ((List.mem_cons.1 hx).resolve_left fun h => he h.symm)

theorem nestedOf_rep [Field K] [LinearOrder K] [IsStrictOrderedRing K] {bn : List (V × Frame V S K)} (hg : GoodNet bn) :
    NRep (domOf bn) (nestedOf bn) (cpdsOf bn) := by
  obtain ⟨hf, hne⟩ := hg
  unfold nestedOf cpdsOf
  rw [NRep, List.forall₂_map_left_iff, List.forall₂_map_right_iff, List.forall₂_same]
  rintro ⟨v, f⟩ hq
  have hdom : domOf bn v = f.index := by simp only [domOf, lookup_of_mem_nodup hf.nodup hq]
  have hn : (⟨cpdFactor (v, ⟨f.index.toFinset, f.parents, f.p⟩), v⟩ : Node V S K) ∈ netNodes (cpdsOf bn) := by
    unfold netNodes cpdsOf
    rw [List.map_map]
    exact List.mem_map.2 ⟨(v, f), hq, rfl⟩
  refine ⟨rfl, ?_, ?_, ?_, ?_⟩
  · have := hf.states_nodup _ hn
    rw [List.map_map]
    simp only [Function.comp_def, List.map_id']
    rw [← hdom]; exact this
  · rw [List.map_map]
    simp [Function.comp_def]
  · simpa using hne _ hq
  · intro q hq'
    obtain ⟨s, hs, rfl⟩ := List.mem_map.1 hq'
    have hpar : ∀ w ∈ f.parents, domOf bn w ≠ [] := by
      intro w hw
      have := hf.wf.args_sub _ hn w (by simp [cpdFactor, hw])
      rw [netNodes_vars, cpdsOf_vars] at this
      obtain ⟨⟨w', g⟩, hg, rfl⟩ := List.mem_map.1 this
      have : domOf bn w' = g.index := by simp only [domOf, lookup_of_mem_nodup hf.nodup hg]
      rw [this]
      exact hne _ hg
    refine ⟨?_, ?_⟩
    · obtain ⟨c, l, hc⟩ := List.exists_cons_of_ne_nil (combos_ne_nil hpar)
      refine ⟨f.parents.zip c, f.p s c, l.map fun ps => (f.parents.zip ps, f.p s ps), by simp only [hc, List.map_cons], ?_⟩
      have hlen : f.parents.length = c.length :=
        (mem_combos.1 (by rw [hc]; exact List.mem_cons_self : c ∈ combos (domOf bn) f.parents)).length_eq
      exact List.map_fst_zip hlen.le
    · intro xs hxs
      exact lookup_zip (fun ps hps => (mem_combos.1 hps).length_eq.symm) (f.p s) (mem_combos.2 hxs)

/-! ### `_generate_bbn` -/

theorem fnArgs_rep {N : Nested V S K} {cpds : List (V × Cpd V S K)} (h : NRep dom N cpds) :
    fnArgs N = .ok (cpds.map fun q => (q.1, q.1 :: q.2.parents)) := by
  unfold fnArgs
  induction h with
  | nil => rfl
  | @cons n c N cpds hab _ ih =>
    obtain ⟨x, st⟩ := n
    obtain ⟨y, c⟩ := c
    obtain ⟨h1, h2⟩ := hab
    simp only at h1 h2
    subst h1
    obtain ⟨q, st', rfl⟩ := List.exists_cons_of_ne_nil h2.nonempty
    obtain ⟨k, v, rest, h3, h4⟩ := (h2.conds q List.mem_cons_self).first
    rw [List.mapM_cons, ih]
    simp only [h3, bind, Except.bind, pure, Except.pure, List.map_cons, h4]

section
variable {K' : Type}

theorem originalPass_args {fs : List (Factor V S K)} {gs : List (Factor V S K')}
    (h : List.Forall₂ (fun f g => f.args = g.args) fs gs) {acc : List (Node V S K)} {acc' : List (Node V S K')}
    (ha : List.Forall₂ (fun n m => n.var = m.var ∧ n.args = m.args) acc acc') :
    List.Forall₂ (fun n m => n.var = m.var ∧ n.args = m.args) (originalPass fs acc) (originalPass gs acc') := by
  unfold originalPass
  induction h generalizing acc acc' with
  | nil => exact ha
  | @cons f g fs gs hfg _ ih =>
    simp only [List.foldl_cons]
    apply ih
    have hv : acc.map Node.var = acc'.map Node.var := by
      clear ih
      induction ha with
      | nil => rfl
      | cons hab _ ih => simp [hab.1, ih]
    rw [hfg, hv]
    split
    · exact List.rel_append ha (.cons ⟨rfl, hfg⟩ .nil)
    · exact ha

theorem originalLoop_args {fs : List (Factor V S K)} {gs : List (Factor V S K')}
    (h : List.Forall₂ (fun f g => f.args = g.args) fs gs) (n : ℕ) {acc : List (Node V S K)} {acc' : List (Node V S K')}
    (ha : List.Forall₂ (fun n m => n.var = m.var ∧ n.args = m.args) acc acc') :
    Both (List.Forall₂ fun n m => n.var = m.var ∧ n.args = m.args) (originalLoop fs n acc) (originalLoop gs n acc') := by
  induction n generalizing acc acc' with
  | zero =>
    unfold originalLoop
    rw [ha.length_eq, h.length_eq]
    split
    · exact rfl
    · exact ha
  | succ n ih =>
    unfold originalLoop
    rw [ha.length_eq, h.length_eq, (originalPass_args h ha).length_eq]
    split
    · split
      · exact rfl
      · exact ih (originalPass_args h ha)
    · exact ha

theorem getOriginalFactors_args {fs : List (Factor V S K)} {gs : List (Factor V S K')}
    (h : List.Forall₂ (fun f g => f.args = g.args) fs gs) :
    Both (List.Forall₂ fun n m => n.var = m.var ∧ n.args = m.args) (getOriginalFactors fs) (getOriginalFactors gs) := by
  unfold getOriginalFactors
  rw [h.length_eq]
  exact originalLoop_args h _ .nil

end

/-- The names of the arguments of the functions, and the nodes with theirs. -/
def HEngine.shape (cpds orig doms : Ref) (E : Engine V S K) : HEngine V :=
  ⟨cpds, orig, doms, E.fns.map fun f => (f.1, f.2.args), E.bbn.map fun n => (n.var, n.args)⟩

theorem generate_rep [Zero K] {P : Ref → Prop} {h : Heap V S K} {c o d : Ref} {e : HEngine V} (he : e.cpds = c ∧ e.orig = o ∧ e.doms = d)
    {N : Nested V S K} (hc : CpdsAt P h c N) {E E' : Engine V S K} (hr : NRep dom N E.cpds)
    (hg : E.generate = (E', .ok ())) : HEngine.generate h e = (HEngine.shape c o d E', .ok ()) := by
  obtain ⟨rfl, rfl, rfl⟩ := he
  unfold HEngine.generate
  rw [hc.read]
  simp only [fnArgs_rep hr]
  have hb := getOriginalFactors_args (fs := (E.cpds.map fun q => (q.1, q.1 :: q.2.parents)).map
      fun f => (⟨f.2, fun _ => 0⟩ : Factor V S K)) (gs := (createFns E.cpds).map Prod.snd) (by
    unfold createFns
    rw [List.map_map, List.map_map, List.forall₂_map_left_iff, List.forall₂_map_right_iff, List.forall₂_same]
    intro q _; rfl)
  unfold Engine.generate at hg
  simp only at hg
  cases h1 : getOriginalFactors ((createFns E.cpds).map Prod.snd) with
  | error err => rw [h1] at hg; simp at hg
  | ok nodes =>
    rw [h1] at hg hb
    simp only [Prod.mk.injEq, and_true] at hg
    subst hg
    cases h2 : getOriginalFactors ((E.cpds.map fun q => (q.1, q.1 :: q.2.parents)).map
      fun f => (⟨f.2, fun _ => 0⟩ : Factor V S K)) with
    | error err => rw [h2] at hb; exact hb.elim
    | ok nodes' =>
      rw [h2] at hb
      simp only [Both] at hb
      simp only [HEngine.shape, createFns, List.map_map, Function.comp_def, cpdFactor, Prod.mk.injEq, and_true,
        HEngine.mk.injEq, true_and]
      clear h1 h2
      induction hb with
      | nil => rfl
      | cons hab _ ih => simp [hab.1, hab.2, ih]

end

end Verif.BBN
