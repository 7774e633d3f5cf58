import Verif.BBN.RoundingSim

/-!
# A query with rounded arithmetic follows the exact query
-/

namespace Verif.BBN

open Function

section
variable {V S : Type} [LinearOrder V] [DecidableEq S] {u : ℚ} {rd : ℚ → ℚ}

/-- The same node, its function read as exact numbers. -/
def Node.exact (n : Node V S (Fl rd)) : Node V S ℚ :=
  { args := n.args, fn := fun a => (n.fn a).val, var := n.var }

theorem forall₂_map_right_self {α β : Type} (f : α → β) (l : List α) : List.Forall₂ (fun a b => b = f a) l (l.map f) := by
  induction l with
  | nil => exact .nil
  | cons a l ih => exact .cons rfl ih

theorem forall₂_eq_self {α : Type} (l : List α) : List.Forall₂ (fun a b => a = b) l l := by
  induction l with
  | nil => exact .nil
  | cons a l ih => exact .cons rfl ih

theorem forall₂_getD {α β : Type} {R : α → β → Prop} {l : List α} {l' : List β} (h : List.Forall₂ R l l') {d : α} {d' : β}
    (hd : R d d') (i : ℕ) : R (l.getD i d) (l'.getD i d') := by
  induction h generalizing i with
  | nil => simpa using hd
  | cons hab _ ih =>
    cases i with
    | zero => simpa using hab
    | succ i => simpa using ih i

theorem forall₂_flatten {α β : Type} {R : α → β → Prop} {l : List (List α)} {l' : List (List β)}
    (h : List.Forall₂ (List.Forall₂ R) l l') : List.Forall₂ R l.flatten l'.flatten := by
  induction h with
  | nil => exact .nil
  | cons hab _ ih => simpa using List.rel_append hab ih

theorem forall₂_filter {α β : Type} {R : α → β → Prop} {p : α → Bool} {q : β → Bool} (hpq : ∀ a b, R a b → p a = q b)
    {l : List α} {l' : List β} (h : List.Forall₂ R l l') : List.Forall₂ R (l.filter p) (l'.filter q) := by
  induction h with
  | nil => exact .nil
  | @cons a b _ _ hab _ ih =>
    rw [List.filter_cons, List.filter_cons, hpq a b hab]
    split
    · exact .cons hab ih
    · exact ih

omit [DecidableEq S] in
theorem buildJoinTree_exact (nd : Nondet V) (nodes : List (Node V S (Fl rd))) :
    buildJoinTree nd (nodes.map Node.exact) = buildJoinTree nd nodes := by
  unfold buildJoinTree moralizedCopy undirectedCopy
  simp only [List.foldl_map, List.map_map]
  rfl

theorem map_var_exact (nodes : List (Node V S (Fl rd))) : (nodes.map Node.exact).map Node.var = nodes.map Node.var := by
  rw [List.map_map]; rfl

theorem validateKeyvals_exact (dom : V → List S) (nodes : List (Node V S (Fl rd))) (ev : List (V × S)) :
    validateKeyvals dom (nodes.map Node.exact) ev = validateKeyvals dom nodes ev := by
  induction ev with
  | nil => rfl
  | cons p ev ih => simp only [validateKeyvals, map_var_exact, ih]

theorem NodesWF.exact {nodes : List (Node V S (Fl rd))} (h : NodesWF nodes) : NodesWF (nodes.map Node.exact) where
  nodup := by rw [map_var_exact]; exact h.nodup
  var_mem := by
    intro n hn
    obtain ⟨m, hm, rfl⟩ := List.mem_map.1 hn
    exact h.var_mem m hm
  args_nodup := by
    intro n hn
    obtain ⟨m, hm, rfl⟩ := List.mem_map.1 hn
    exact h.args_nodup m hm
  args_sub := by
    intro n hn a ha
    obtain ⟨m, hm, rfl⟩ := List.mem_map.1 hn
    rw [map_var_exact]
    exact h.args_sub m hm a ha

theorem arrows_exact (nodes : List (Node V S (Fl rd))) : arrows (nodes.map Node.exact) = arrows nodes := by
  unfold arrows
  rw [List.flatMap_map]
  rfl

theorem allStates_exact (dom : V → List S) (nodes : List (Node V S (Fl rd))) :
    allStates dom (nodes.map Node.exact) = allStates dom nodes := by
  unfold allStates
  rw [List.flatMap_map]
  rfl

theorem assignClusters_sim {jt : JT V} {nodes : List (Node V S (Fl rd))} {asg' : List (ℕ × Node V S ℚ)}
    (h : assignClusters jt (nodes.map Node.exact) = .ok asg') :
    ∃ asg, assignClusters jt nodes = .ok asg ∧ asg' = asg.map (fun p => (p.1, p.2.exact)) ∧ asg.map (·.2) = nodes := by
  unfold assignClusters at h ⊢
  induction nodes generalizing asg' with
  | nil =>
    simp only [List.map_nil, List.mapM_nil, pure, Except.pure, Except.ok.injEq] at h
    subst h
    exact ⟨[], rfl, rfl, rfl⟩
  | cons n nodes ih =>
    rw [List.map_cons, List.mapM_cons] at h
    rw [List.mapM_cons]
    have e : (jt.order.filter fun i => decide (n.exact.args.toFinset ⊆ clq jt.cliques i)) =
        jt.order.filter fun i => decide (n.args.toFinset ⊆ clq jt.cliques i) := rfl
    rw [e] at h
    cases hf : jt.order.filter (fun i => decide (n.args.toFinset ⊆ clq jt.cliques i)) with
    | nil => rw [hf] at h; simp [bind, Except.bind] at h
    | cons i rest =>
      rw [hf] at h
      simp only [bind, Except.bind, pure, Except.pure] at h ⊢
      split at h
      · cases h
      · rename_i v hv
        simp only [Except.ok.injEq] at h
        obtain ⟨asg, h1, h2, h3⟩ := ih hv
        rw [h1]
        refine ⟨(i, n) :: asg, rfl, ?_, ?_⟩
        · rw [← h, h2]; rfl
        · simp [h3]

theorem potential_sim (h : Rounds u rd) (k : Key V S) (ns : List (Node V S (Fl rd)))
    (hpos : ∀ n ∈ ns, ∀ a, argList k n.args = .ok a → 0 ≤ (n.fn a).val) {q : ℚ}
    (hq : potential k (ns.map Node.exact) = .ok q) : ∃ f, potential k ns = .ok f ∧ Close u ns.length f.val q := by
  have gen : ∀ (acc : Fl rd) (acc' : ℚ) (m : ℕ), Close u m acc.val acc' →
      (ns.map Node.exact).foldlM (fun acc n => do
        let a ← argList k n.args
        return acc * n.fn a) acc' = (.ok q : Except Err ℚ) →
      ∃ f, ns.foldlM (fun acc n => do
        let a ← argList k n.args
        return acc * n.fn a) acc = (.ok f : Except Err (Fl rd)) ∧ Close u (m + ns.length) f.val q := by
    clear hq
    induction ns with
    | nil =>
      intro acc acc' m hacc hq
      simp only [List.map_nil, List.foldlM_nil, pure, Except.pure, Except.ok.injEq] at hq
      subst hq
      exact ⟨acc, rfl, by simpa using hacc⟩
    | cons n ns ih =>
      intro acc acc' m hacc hq
      rw [List.map_cons, List.foldlM_cons] at hq
      rw [List.foldlM_cons]
      have e : argList k n.exact.args = argList k n.args := rfl
      rw [e] at hq
      cases ha : argList k n.args with
      | error e => rw [ha] at hq; simp [bind, Except.bind] at hq
      | ok a =>
        rw [ha] at hq
        simp only [bind, Except.bind, pure, Except.pure] at hq ⊢
        have h1 : Close u (m + 0 + 1) (acc * n.fn a).val (acc' * n.exact.fn a) := by
          rw [Fl.mul_val]
          exact hacc.mul h (Close.refl (hpos n List.mem_cons_self a ha))
        obtain ⟨f, hf, hc⟩ := ih (fun n hn => hpos n (List.mem_cons_of_mem _ hn)) (acc * n.fn a) (acc' * n.exact.fn a) _ h1 hq
        refine ⟨f, hf, hc.mono h ?_⟩
        simp only [List.length_cons]; omega
  obtain ⟨f, h1, h2⟩ := gen 1 1 0 (Close.refl (y := (1 : ℚ)) (by norm_num)) hq
  exact ⟨f, h1, by simpa using h2⟩

theorem mapM_length {α β ε : Type} {f : α → Except ε β} {l : List α} {r : List β} (h : l.mapM f = .ok r) :
    r.length = l.length := by
  induction l generalizing r with
  | nil =>
    simp only [List.mapM_nil, pure, Except.pure, Except.ok.injEq] at h
    subst h; rfl
  | cons a l ih =>
    rw [List.mapM_cons] at h
    cases hg : f a with
    | error e => rw [hg] at h; simp [bind, Except.bind] at h
    | ok y =>
      rw [hg] at h
      cases hm : l.mapM f with
      | error e => rw [hm] at h; simp [bind, Except.bind] at h
      | ok ys =>
        rw [hm] at h
        simp only [bind, Except.bind, pure, Except.pure, Except.ok.injEq] at h
        subst h
        simp [ih hm]

theorem cliqueTable_sim (h : Rounds u rd) {dom : V → List S} {X : List V} (ns : List (Node V S (Fl rd)))
    (hpos : ∀ k ∈ perms dom X, ∀ n ∈ ns, ∀ a, argList k n.args = .ok a → 0 ≤ (n.fn a).val) {t' : TT V S ℚ}
    (ht : cliqueTable dom X (ns.map Node.exact) = .ok t') :
    ∃ t, cliqueTable dom X ns = .ok t ∧ CloseTT u ns.length t t' ∧ t'.length = (perms dom X).length := by
  have hlen := mapM_length ht
  unfold cliqueTable at ht ⊢
  obtain ⟨t, h1, h2⟩ := mapM_rel (forall₂_eq_self (perms dom X))
    (T := fun (a' : Key V S × Fl rd) (b' : Key V S × ℚ) => a'.1 = b'.1 ∧ Close u ns.length a'.2.val b'.2)
    (f := fun k => do
      let p ← potential k ns
      return (k, p)) (by
      intro k hk k' _ hkk y hy
      subst hkk
      cases hp : potential k (ns.map Node.exact) with
      | error e => rw [hp] at hy; simp [bind, Except.bind] at hy
      | ok q =>
        obtain ⟨f, hf, hc⟩ := potential_sim h k ns (hpos k hk) hp
        rw [hp] at hy
        simp only [bind, Except.bind, pure, Except.pure, Except.ok.injEq] at hy ⊢
        subst hy
        rw [hf]
        exact ⟨(k, f), rfl, rfl, hc⟩) ht
  exact ⟨t, h1, h2, hlen⟩

theorem zeroEvidence_sim (h : Rounds u rd) {n : ℕ} {t : TT V S (Fl rd)} {t' : TT V S ℚ} (c : CloseTT u n t t') (v : V) (s : S) :
    CloseTT u n (zeroEvidence t v s) (zeroEvidence t' v s) ∧ (zeroEvidence t' v s).length = t'.length := by
  refine ⟨?_, by simp [zeroEvidence]⟩
  induction c with
  | nil => exact .nil
  | @cons a b t t' hab ht ih =>
    obtain ⟨k1, v1⟩ := a
    obtain ⟨k2, v2⟩ := b
    obtain ⟨hk, hc⟩ := hab
    simp only at hk hc
    subst hk
    refine .cons ?_ ih
    dsimp only
    split
    · exact ⟨rfl, (Close.refl (u := u) le_rfl).mono h (Nat.zero_le _)⟩
    · exact ⟨rfl, hc⟩

theorem initClique_sim (h : Rounds u rd) {dom : V → List S} {ev : List (V × S)} {X : List V} (ns : List (Node V S (Fl rd)))
    (hpos : ∀ k ∈ perms dom X, ∀ n ∈ ns, ∀ a, argList k n.args = .ok a → 0 ≤ (n.fn a).val) {t' : TT V S ℚ}
    (ht : initClique dom ev X (ns.map Node.exact) = .ok t') :
    ∃ t, initClique dom ev X ns = .ok t ∧ CloseTT u ns.length t t' ∧ t'.length = (perms dom X).length := by
  unfold initClique at ht ⊢
  cases hc : cliqueTable dom X (ns.map Node.exact) with
  | error e => rw [hc] at ht; simp [bind, Except.bind] at ht
  | ok t0' =>
    obtain ⟨t0, h1, h2, h3⟩ := cliqueTable_sim h ns hpos hc
    rw [hc] at ht
    rw [h1]
    simp only [bind, Except.bind, pure, Except.pure, Except.ok.injEq, List.foldl_map] at ht ⊢
    refine ⟨_, rfl, ?_⟩
    subst ht
    have gen : ∀ (ns' : List (Node V S (Fl rd))) (t : TT V S (Fl rd)) (t' : TT V S ℚ), CloseTT u ns.length t t' →
        CloseTT u ns.length
          (ns'.foldl (fun tt n => match ev.lookup n.var with | some s => zeroEvidence tt n.var s | none => tt) t)
          (ns'.foldl (fun tt n => match ev.lookup n.exact.var with | some s => zeroEvidence tt n.exact.var s | none => tt) t') ∧
        (ns'.foldl (fun tt n => match ev.lookup n.exact.var with
          | some s => zeroEvidence tt n.exact.var s | none => tt) t').length = t'.length := by
      intro ns'
      induction ns' with
      | nil => intro t t' hc; exact ⟨hc, rfl⟩
      | cons n ns' ih =>
        intro t t' hc
        simp only [List.foldl_cons]
        have e : ev.lookup n.exact.var = ev.lookup n.var := rfl
        rw [e]
        cases ev.lookup n.var with
        | none => exact ih t t' hc
        | some s =>
          obtain ⟨a, b⟩ := zeroEvidence_sim h hc n.var s
          obtain ⟨c, d⟩ := ih _ _ a
          exact ⟨c, by rw [← b]; exact d⟩
    obtain ⟨a, b⟩ := gen ns t0 t0' h2
    exact ⟨a, b.trans h3⟩

theorem argList_nonneg {dom : V → List S} {nodes : List (Node V S (Fl rd))} (hpos : NonNeg dom (nodes.map Node.exact)) (x₀ : V → S)
    {X : List V} {k : Key V S} (hk : k ∈ perms dom X) {n : Node V S (Fl rd)} (hn : n ∈ nodes) {a : List S}
    (ha : argList k n.args = .ok a) : 0 ≤ (n.fn a).val := by
  have hd := ((mem_perms_iff dom k).1 hk).2
  have key : ∀ (args : List V) (a : List S), argList k args = .ok a →
      a = args.map (fun v => (k.lookup v).getD (x₀ v)) ∧ ∀ v ∈ args, (k.lookup v).getD (x₀ v) ∈ dom v := by
    intro args
    induction args with
    | nil =>
      intro a ha
      simp only [argList, List.mapM_nil, pure, Except.pure, Except.ok.injEq] at ha
      subst ha
      simp
    | cons v args ih =>
      intro a ha
      unfold argList at ha
      rw [List.mapM_cons] at ha
      cases hl : k.lookup v with
      | none => rw [hl] at ha; simp [bind, Except.bind] at ha
      | some s =>
        rw [hl] at ha
        simp only [bind, Except.bind, pure, Except.pure] at ha
        split at ha
        · cases ha
        · rename_i b hb
          simp only [Except.ok.injEq] at ha
          obtain ⟨h1, h2⟩ := ih b hb
          subst ha
          constructor
          · rw [List.map_cons, hl, ← h1]; rfl
          · intro w hw
            rcases List.mem_cons.1 hw with rfl | hw
            · rw [hl]
              have hm : (w, s) ∈ k := by
                clear hd ih hk hb h1 h2 ha
                induction k with
                | nil => simp at hl
                | cons p k ihk =>
                  obtain ⟨p1, p2⟩ := p
                  rw [List.lookup_cons] at hl
                  by_cases hp : w == p1
                  · simp only [hp, Option.some.injEq] at hl
                    rw [beq_iff_eq] at hp
                    subst hp hl
                    exact List.mem_cons_self
                  · simp only [Bool.not_eq_true] at hp
                    simp only [hp] at hl
                    exact List.mem_cons_of_mem _ (ihk hl)
              exact hd _ hm
            · exact h2 w hw
  obtain ⟨h1, h2⟩ := key n.args a ha
  rw [h1]
  exact hpos n.exact (List.mem_map_of_mem hn) _ h2

theorem initPotentials_sim (h : Rounds u rd) {dom : V → List S} {jt : JT V} {nodes : List (Node V S (Fl rd))}
    (hpos : NonNeg dom (nodes.map Node.exact)) (x₀ : V → S) {asg : List (ℕ × Node V S (Fl rd))} (hasg : asg.map (·.2) = nodes)
    {ev : List (V × S)} {L : ℕ} (hL : ∀ i, (perms dom (names (clq jt.cliques i))).length ≤ L) {Q : PState V S ℚ}
    (hq : initPotentials dom jt (asg.map fun p => (p.1, p.2.exact)) ev = .ok Q) :
    ∃ F, initPotentials dom jt asg ev = .ok F ∧ Sim u L (fun _ => nodes.length) (fun _ => 0) F Q := by
  unfold initPotentials at hq ⊢
  have hns : ∀ i, ((asg.map fun p => (p.1, p.2.exact)).filter (·.1 = i)).map (·.2) =
      ((asg.filter (·.1 = i)).map (·.2)).map Node.exact := by
    intro i
    rw [List.filter_map, List.map_map, List.map_map]
    rfl
  have hlen : ∀ i, ((asg.filter (·.1 = i)).map (·.2)).length ≤ nodes.length := by
    intro i
    rw [← hasg, List.length_map, List.length_map]
    exact List.length_filter_le _ _
  have hmem : ∀ i, ∀ n ∈ (asg.filter (·.1 = i)).map (·.2), n ∈ nodes := by
    intro i n hn
    obtain ⟨p, hp, rfl⟩ := List.mem_map.1 hn
    rw [← hasg]
    exact List.mem_map_of_mem (List.mem_of_mem_filter hp)
  simp only [hns] at hq
  simp only [bind, Except.bind] at hq ⊢
  split at hq
  · cases hq
  · rename_i tabs' htabs
    obtain ⟨tabs, h1, h2⟩ := mapM_rel (forall₂_eq_self (List.range jt.cliques.length))
      (T := fun (t : TT V S (Fl rd)) (t' : TT V S ℚ) => CloseTT u nodes.length t t' ∧ t'.length ≤ L)
      (f := fun i => initClique dom ev (names (clq jt.cliques i)) ((asg.filter (·.1 = i)).map (·.2))) (by
        intro i _ i' _ hii y hy
        subst hii
        obtain ⟨t, a, b, c⟩ := initClique_sim h _ (fun k hk n hn a ha => argList_nonneg hpos x₀ hk (hmem i n hn) ha) hy
        exact ⟨t, a, b.mono h (hlen i), c.trans_le (hL i)⟩) htabs
    rw [h1]
    simp only [pure, Except.pure, Except.ok.injEq] at hq ⊢
    subst hq
    refine ⟨_, rfl, ?_, ?_, ?_⟩
    · intro i
      exact (forall₂_getD h2 (d := []) (d' := []) ⟨.nil, by simp⟩ i).1
    · intro e
      dsimp only
      generalize perms dom (names (label jt.cliques e)) = P
      induction P with
      | nil => exact .nil
      | cons k P ih => exact .cons ⟨rfl, Close.refl (y := (1 : ℚ)) (by norm_num)⟩ ih
    · intro i
      exact (forall₂_getD h2 (d := []) (d' := []) ⟨.nil, by simp⟩ i).2

/-! ### Reading the answers -/

/-- Lists of answers with the same keys and close values. -/
abbrev CloseAns (u : ℚ) (n : ℕ) (t : List ((V × S) × Fl rd)) (t' : List ((V × S) × ℚ)) : Prop :=
  List.Forall₂ (fun a b => a.1 = b.1 ∧ Close u n a.2.val b.2) t t'

omit [LinearOrder V] [DecidableEq S] in
theorem unpackMarginal_sim {n : ℕ} {t : TT V S (Fl rd)} {t' : TT V S ℚ} (c : CloseTT u n t t') :
    CloseAns u n (unpackMarginal t) (unpackMarginal t') := by
  unfold unpackMarginal
  induction c with
  | nil => exact .nil
  | @cons a b t t' hab ht ih =>
    obtain ⟨k1, v1⟩ := a
    obtain ⟨k2, v2⟩ := b
    obtain ⟨hk, hc⟩ := hab
    simp only at hk hc
    subst hk
    cases k1 with
    | nil => exact ih
    | cons p k => exact .cons ⟨rfl, hc⟩ ih

theorem project_range {t : TT V S (Fl rd)} {X R : List V} {r : TT V S (Fl rd)} (hr : project t X R = .ok r) :
    ∀ a ∈ r, ∃ q, a.2.val = rd q := by
  have hadd : ∀ (acc : TT V S (Fl rd)) (k : Key V S) (v : Fl rd), (∀ a ∈ acc, ∃ q, a.2.val = rd q) →
      ∀ a ∈ addTo acc k v, ∃ q, a.2.val = rd q := by
    intro acc k v
    induction acc with
    | nil =>
      intro _ a ha
      simp only [addTo, List.mem_singleton] at ha
      subst ha
      exact ⟨_, rfl⟩
    | cons p acc ih =>
      intro hacc a ha
      obtain ⟨k1, v1⟩ := p
      simp only [addTo] at ha
      split at ha
      · rcases List.mem_cons.1 ha with rfl | ha
        · exact ⟨_, rfl⟩
        · exact hacc a (List.mem_cons_of_mem _ ha)
      · rcases List.mem_cons.1 ha with rfl | ha
        · exact hacc _ List.mem_cons_self
        · exact ih (fun a ha => hacc a (List.mem_cons_of_mem _ ha)) a ha
  unfold project at hr
  have gen : ∀ (acc : TT V S (Fl rd)), (∀ a ∈ acc, ∃ q, a.2.val = rd q) →
      t.foldlM (fun acc kv => do
        let e ← transform kv.1 X R
        return addTo acc e kv.2) acc = (.ok r : Except Err (TT V S (Fl rd))) → ∀ a ∈ r, ∃ q, a.2.val = rd q := by
    clear hr
    induction t with
    | nil =>
      intro acc hacc hr
      simp only [List.foldlM_nil, pure, Except.pure, Except.ok.injEq] at hr
      subst hr; exact hacc
    | cons kv t ih =>
      intro acc hacc hr
      rw [List.foldlM_cons] at hr
      cases he : transform kv.1 X R with
      | error e => simp [he, bind, Except.bind] at hr
      | ok e =>
        simp only [he, bind, Except.bind, pure, Except.pure] at hr
        exact ih _ (hadd acc e kv.2 hacc) hr
  exact gen [] (by simp) hr

theorem foldl_add_sim (h : Rounds u rd) {M : ℕ} {l : List (Fl rd)} {l' : List ℚ}
    (hl : List.Forall₂ (fun (a : Fl rd) b => Close u M a.val b) l l') {m : ℕ} (hm : M ≤ m) {acc : Fl rd} {acc' : ℚ}
    (ha : Close u m acc.val acc') : Close u (m + l'.length) (l.foldl (· + ·) acc).val (l'.foldl (· + ·) acc') := by
  induction hl generalizing m acc acc' with
  | nil => simpa using ha
  | @cons a b l l' hab _ ih =>
    have h1 : Close u (m + 1) (acc + a).val (acc' + b) := by
      rw [Fl.add_val]; exact ha.add h (hab.mono h hm)
    have := ih (m := m + 1) (by omega) h1
    simp only [List.foldl_cons, List.length_cons]
    rw [show m + (l'.length + 1) = m + 1 + l'.length by omega]
    exact this

theorem normalise_sim (h : Rounds u rd) {M B : ℕ} {ms : List ((V × S) × Fl rd)} {ms' : List ((V × S) × ℚ)}
    (c : CloseAns u M ms ms') (hB : ∀ v, (ms'.filter (·.1.1 = v)).length ≤ B) :
    CloseAns u (M + (M + B) + 1) (normalise ms) (normalise ms') := by
  have hz : ∀ v, Close u (M + B) (((ms.filter (·.1.1 = v)).map (·.2)).foldl (· + ·) (0 : Fl rd)).val
      (((ms'.filter (·.1.1 = v)).map (·.2)).foldl (· + ·) 0) := by
    intro v
    have hf : CloseAns u M (ms.filter (·.1.1 = v)) (ms'.filter (·.1.1 = v)) :=
      forall₂_filter (R := fun (a : (V × S) × Fl rd) (b : (V × S) × ℚ) => a.1 = b.1 ∧ Close u M a.2.val b.2)
        (fun a b hab => by rw [hab.1]) c
    have hm : List.Forall₂ (fun (a : Fl rd) b => Close u M a.val b) ((ms.filter (·.1.1 = v)).map (·.2))
        ((ms'.filter (·.1.1 = v)).map (·.2)) := by
      rw [List.forall₂_map_left_iff, List.forall₂_map_right_iff]
      exact hf.imp fun _ _ hab => hab.2
    refine (foldl_add_sim h hm le_rfl ((Close.refl (u := u) (le_refl (0 : ℚ))).mono h (Nat.zero_le M))).mono h ?_
    rw [List.length_map]
    have := hB v
    omega
  unfold normalise
  rw [CloseAns, List.forall₂_map_left_iff, List.forall₂_map_right_iff]
  refine c.imp ?_
  rintro ⟨⟨v, s⟩, a⟩ ⟨⟨v', s'⟩, b⟩ ⟨hk, hc⟩
  simp only [Prod.mk.injEq] at hk
  obtain ⟨rfl, rfl⟩ := hk
  have hzv := hz v
  dsimp only at hc ⊢
  by_cases h0 : ((ms'.filter (·.1.1 = v)).map (·.2)).foldl (· + ·) 0 = 0
  · have h0' : ((ms.filter (·.1.1 = v)).map (·.2)).foldl (· + ·) 0 = 0 := Fl.ext ((hzv.eq_zero_iff h).2 h0)
    rw [if_pos h0, if_pos h0']
    exact ⟨rfl, hc.mono h (by omega)⟩
  · have h0' : ((ms.filter (·.1.1 = v)).map (·.2)).foldl (· + ·) 0 ≠ 0 := fun hh =>
      h0 ((hzv.eq_zero_iff h).1 (by rw [hh]; rfl))
    rw [if_neg h0, if_neg h0']
    refine ⟨rfl, ?_⟩
    dsimp only
    rw [Fl.div_val]
    exact hc.div h hzv

/-! ### Sizes -/

theorem perms_length (dom : V → List S) (X : List V) : (perms dom X).length = (X.map fun v => (dom v).length).prod := by
  induction X with
  | nil => rfl
  | cons v X ih =>
    simp only [perms, List.length_flatMap, List.length_map, ih, List.map_cons, List.prod_cons]
    simp

theorem perms_names_length (dom : V → List S) (c : Finset V) : (perms dom (names c)).length = ∏ v ∈ c, (dom v).length := by
  rw [perms_length, Finset.prod, ← Multiset.prod_coe, ← Multiset.map_coe]
  unfold names
  rw [Finset.sort_eq]

theorem maxi_length (l : List (Finset V)) : (maxi l).length ≤ l.length := by
  induction l with
  | nil => simp [maxi]
  | cons c l ih =>
    simp only [maxi, List.length_cons]
    have := List.length_filter_le (fun d => decide (¬ d ⊆ c)) (maxi l)
    omega

end

end Verif.BBN
