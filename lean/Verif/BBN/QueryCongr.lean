import Verif.BBN.Props

/-!
# A query looks at the functions of the nodes only on states of their arguments
-/

namespace Verif.BBN

section
variable {V S K : Type} [LinearOrder V] [DecidableEq S]

/-- Equal except for the functions, which agree on all states of the arguments. -/
structure SameNode (dom : V → List S) (n m : Node V S K) : Prop where
  var : n.var = m.var
  args : n.args = m.args
  fn : ∀ xs, List.Forall₂ (fun a s => s ∈ dom a) n.args xs → n.fn xs = m.fn xs

variable {dom : V → List S}

omit [LinearOrder V] [DecidableEq S] in
theorem sameNode_vars {ns ms : List (Node V S K)} (h : List.Forall₂ (SameNode dom) ns ms) :
    ns.map Node.var = ms.map Node.var := by
  induction h with
  | nil => rfl
  | cons hab _ ih => simp [hab.var, ih]

omit [DecidableEq S] in
theorem sameNode_parents {n m : Node V S K} (h : SameNode dom n m) : n.parents = m.parents := by
  unfold Node.parents; rw [h.args, h.var]

omit [DecidableEq S] in
theorem undirectedCopy_same {ns ms : List (Node V S K)} (h : List.Forall₂ (SameNode dom) ns ms) :
    undirectedCopy ns = undirectedCopy ms := by
  unfold undirectedCopy
  rw [sameNode_vars h]
  generalize (⟨ms.map Node.var, fun _ => ∅⟩ : UG V) = g
  induction h generalizing g with
  | nil => rfl
  | cons hab _ ih =>
    simp only [List.foldl_cons]
    rw [sameNode_parents hab, hab.var]
    exact ih _

omit [DecidableEq S] in
theorem moralizedCopy_same {ns ms : List (Node V S K)} (h : List.Forall₂ (SameNode dom) ns ms) (g : UG V) :
    moralizedCopy g ns = moralizedCopy g ms := by
  unfold moralizedCopy
  induction h generalizing g with
  | nil => rfl
  | cons hab _ ih =>
    simp only [List.foldl_cons]
    rw [sameNode_parents hab]
    exact ih _

omit [DecidableEq S] in
theorem buildJoinTree_same (nd : Nondet V) {ns ms : List (Node V S K)} (h : List.Forall₂ (SameNode dom) ns ms) :
    buildJoinTree nd ns = buildJoinTree nd ms := by
  unfold buildJoinTree
  rw [undirectedCopy_same h, moralizedCopy_same h]

theorem validateKeyvals_same {ns ms : List (Node V S K)} (h : List.Forall₂ (SameNode dom) ns ms)
    (ev : List (V × S)) : validateKeyvals dom ns ev = validateKeyvals dom ms ev := by
  induction ev with
  | nil => rfl
  | cons p ev ih =>
    obtain ⟨k, v⟩ := p
    simp only [validateKeyvals, sameNode_vars h, ih]

/-- Results of two runs: the same error, or related values. -/
def Both {ε α β : Type} (T : α → β → Prop) : Except ε α → Except ε β → Prop
  | .ok a, .ok b => T a b
  | .error e, .error e' => e = e'
  | _, _ => False

omit [LinearOrder V] [DecidableEq S] in
theorem both_mapM {α β γ δ ε : Type} {R : α → β → Prop} {T : γ → δ → Prop} {f : α → Except ε γ}
    {g : β → Except ε δ} {l : List α} {l' : List β} (hl : List.Forall₂ R l l')
    (h : ∀ a b, R a b → Both T (f a) (g b)) : Both (List.Forall₂ T) (l.mapM f) (l'.mapM g) := by
  induction hl with
  | nil => simp [Both, pure, Except.pure]
  | @cons a b l l' hab _ ih =>
    rw [List.mapM_cons, List.mapM_cons]
    have h1 := h a b hab
    cases hf : f a <;> cases hg : g b <;> rw [hf, hg] at h1 <;> simp only [Both] at h1
    · subst h1; exact rfl
    · cases hfl : l.mapM f <;> cases hgl : l'.mapM g <;> rw [hfl, hgl] at ih <;> simp only [Both] at ih
      · subst ih; exact rfl
      · exact .cons h1 ih

theorem assignClusters_same (jt : JT V) {ns ms : List (Node V S K)} (h : List.Forall₂ (SameNode dom) ns ms) :
    Both (List.Forall₂ fun a b : ℕ × Node V S K => a.1 = b.1 ∧ SameNode dom a.2 b.2)
      (assignClusters jt ns) (assignClusters jt ms) := by
  unfold assignClusters
  refine both_mapM h ?_
  intro a b hab
  rw [hab.args]
  cases jt.order.filter (fun i => decide (b.args.toFinset ⊆ clq jt.cliques i)) with
  | nil => exact rfl
  | cons i l => exact ⟨rfl, hab⟩

omit [DecidableEq S] in
theorem perms_dom {X : List V} {k : Key V S} (hk : k ∈ perms dom X) : ∀ p ∈ k, p.2 ∈ dom p.1 := by
  induction X generalizing k with
  | nil =>
    simp only [perms, List.mem_singleton] at hk
    subst hk; simp
  | cons v X ih =>
    simp only [perms, List.mem_flatMap, List.mem_map] at hk
    obtain ⟨s, hs, k', hk', rfl⟩ := hk
    intro p hp
    rcases List.mem_cons.1 hp with rfl | hp
    · exact hs
    · exact ih hk' p hp

theorem argList_dom {k : Key V S} (hk : ∀ p ∈ k, p.2 ∈ dom p.1) {args : List V} {xs : List S}
    (h : argList k args = .ok xs) : List.Forall₂ (fun a s => s ∈ dom a) args xs := by
  unfold argList at h
  induction args generalizing xs with
  | nil =>
    simp only [List.mapM_nil, pure, Except.pure, Except.ok.injEq] at h
    subst h; exact .nil
  | cons a args ih =>
    rw [List.mapM_cons] at h
    cases hl : k.lookup a with
    | none => rw [hl] at h; simp [bind, Except.bind] at h
    | some s =>
      rw [hl] at h
      simp only [bind, Except.bind, pure, Except.pure] at h
      split at h
      · cases h
      · rename_i ys hys
        simp only [Except.ok.injEq] at h
        subst h
        exact .cons (hk _ (lookup_mem hl)) (ih hys)

theorem potential_same [Mul K] [One K] {k : Key V S} (hk : ∀ p ∈ k, p.2 ∈ dom p.1) {ns ms : List (Node V S K)}
    (h : List.Forall₂ (SameNode dom) ns ms) : potential k ns = potential k ms := by
  unfold potential
  generalize (1 : K) = acc
  induction h generalizing acc with
  | nil => rfl
  | @cons a b ns ms hab _ ih =>
    rw [List.foldlM_cons, List.foldlM_cons, ← hab.args]
    cases hl : argList k a.args with
    | error e => rfl
    | ok xs =>
      simp only [bind, Except.bind, pure, Except.pure]
      rw [hab.fn xs (argList_dom hk hl)]
      exact ih _

theorem mapM_congr_mem {α β ε : Type} {f g : α → Except ε β} {l : List α} (h : ∀ a ∈ l, f a = g a) :
    l.mapM f = l.mapM g := by
  induction l with
  | nil => rfl
  | cons a l ih =>
    rw [List.mapM_cons, List.mapM_cons, h a List.mem_cons_self, ih fun b hb => h b (List.mem_cons_of_mem _ hb)]

theorem initClique_same [Mul K] [One K] [Zero K] (ev : List (V × S)) (X : List V) {ns ms : List (Node V S K)}
    (h : List.Forall₂ (SameNode dom) ns ms) : initClique dom ev X ns = initClique dom ev X ms := by
  have hf : ∀ tt : TT V S K,
      ns.foldl (fun tt n => match ev.lookup n.var with
        | some s => zeroEvidence tt n.var s
        | none => tt) tt =
      ms.foldl (fun tt n => match ev.lookup n.var with
        | some s => zeroEvidence tt n.var s
        | none => tt) tt := by
    induction h with
    | nil => intro tt; rfl
    | @cons a b ns ms hab _ ih =>
      intro tt
      simp only [List.foldl_cons]
      rw [ih, hab.var]
  unfold initClique cliqueTable
  rw [mapM_congr_mem (g := fun k => do
    let p ← potential k ms
    return (k, p)) fun k hk => by rw [potential_same (perms_dom hk) h]]
  cases ((perms dom X).mapM fun k => do
    let p ← potential k ms
    return (k, p) : Except Err (TT V S K)) with
  | error e => rfl
  | ok tt => exact congrArg Except.ok (hf tt)

variable [Add K] [Mul K] [Div K] [Zero K] [One K] [DecidableEq K]

/-- The answer depends on the functions only through their values on states of the arguments. -/
theorem query_same (nd : Nondet V) {ns ms : List (Node V S K)} (h : List.Forall₂ (SameNode dom) ns ms)
    (ev : List (V × S)) : query nd dom ns ev = query nd dom ms ev := by
  unfold query
  rw [validateKeyvals_same h, buildJoinTree_same nd h]
  cases validateKeyvals dom ms ev with
  | error e => rfl
  | ok u =>
    cases buildJoinTree nd ms with
    | error e => rfl
    | ok jt =>
      simp only [bind, Except.bind]
      have ha := assignClusters_same jt h
      cases h1 : assignClusters jt ns <;> cases h2 : assignClusters jt ms <;> rw [h1, h2] at ha <;>
        simp only [Both] at ha
      · subst ha; rfl
      · rename_i as bs
        have hi : initPotentials dom jt as ev = initPotentials dom jt bs ev := by
          unfold initPotentials
          rw [mapM_congr_mem (g := fun i => initClique dom ev (names (clq jt.cliques i))
            ((bs.filter (·.1 = i)).map (·.2))) fun i _ => ?_]
          apply initClique_same
          clear h1 h2
          induction ha with
          | nil => exact .nil
          | @cons a b as bs hab _ ih =>
            rw [List.filter_cons, List.filter_cons, hab.1]
            split
            · exact .cons hab.2 ih
            · exact ih
        dsimp only
        rw [hi]
        cases initPotentials dom jt bs ev with
        | error e => rfl
        | ok st =>
          dsimp only
          cases jt.order with
          | nil => rfl
          | cons start rest =>
            dsimp only
            cases propagate jt (fun i => nd.setOrd i (neighbours jt.edges i)) start st with
            | error e => rfl
            | ok st' =>
              dsimp only
              have hm : (ns.mapM fun n => (do
                  let tt ← marginal jt st' n.var
                  return unpackMarginal tt : Except Err (List ((V × S) × K)))) =
                  ms.mapM fun n => do
                    let tt ← marginal jt st' n.var
                    return unpackMarginal tt := by
                clear h1 h2 ha hi
                induction h with
                | nil => rfl
                | @cons a b ns ms hab _ ih =>
                  rw [List.mapM_cons, List.mapM_cons, ih, hab.var]
              simp only [bind, Except.bind] at hm
              rw [hm]

end

end Verif.BBN
