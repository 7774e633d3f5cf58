import Verif.BBN.Conditionals

/-!
# C103: when building a network comes to an end

`build_bbn` looks for the function that introduces each variable in a `while` loop.
-/

namespace Verif.BBN
open Function

section
variable {V S K : Type} [LinearOrder V]

/-- Every function has the variable it is meant for among its arguments, and no two are meant for the same. -/
structure Own (nodes : List (Node V S K)) : Prop where
  nodup : (nodes.map Node.var).Nodup
  var_mem : ∀ n ∈ nodes, n.var ∈ n.args

theorem sweep_own {nodes acc : List (Node V S K)} (hw : Own nodes) (h : OInv nodes acc) {n : Node V S K} (hn : n ∈ nodes) :
    (sweep acc n.toFactor = acc ∨ (n.var ∉ acc.map Node.var ∧ n.args.count n.var = 1 ∧
      sweep acc n.toFactor = acc ++ [n] ∧ OInv nodes (acc ++ [n]))) ∧
    (n.args.count n.var = 1 → (∀ a ∈ n.args, a = n.var ∨ a ∈ acc.map Node.var) →
      n.var ∈ (sweep acc n.toFactor).map Node.var) := by
  by_cases hv : n.var ∈ acc.map Node.var
  · have hnacc : n ∈ acc := by
      obtain ⟨m, hm, hmv⟩ := List.mem_map.1 hv
      rw [← eq_of_var hw.nodup (h.sub m hm) hn hmv]
      exact hm
    have hf : n.args.filter (fun a => a ∉ acc.map Node.var) = [] := by
      rw [List.filter_eq_nil_iff]
      intro a ha
      simpa using h.closed n hnacc a ha
    have hs : sweep acc n.toFactor = acc := by simp only [sweep, hf]
    rw [hs]
    exact ⟨Or.inl rfl, fun _ _ => hv⟩
  · have hmem : n.var ∈ n.args.filter (fun a => a ∉ acc.map Node.var) :=
      List.mem_filter.2 ⟨hw.var_mem n hn, by simpa using hv⟩
    have hcount : (n.args.filter (fun a => a ∉ acc.map Node.var)).count n.var = n.args.count n.var :=
      List.count_filter (by simpa using hv)
    constructor
    · match hf : n.args.filter (fun a => a ∉ acc.map Node.var) with
      | [] => rw [hf] at hmem; simp at hmem
      | [a] =>
        right
        rw [hf, List.mem_singleton] at hmem
        have hs : sweep acc n.toFactor = acc ++ [n] := by
          simp only [sweep, hf, ← hmem]
        have hargs : ∀ b ∈ n.args, b = n.var ∨ b ∈ acc.map Node.var := by
          intro b hb
          by_cases hb' : b ∈ acc.map Node.var
          · exact Or.inr hb'
          · have : b ∈ n.args.filter (fun a => a ∉ acc.map Node.var) :=
              List.mem_filter.2 ⟨hb, by simpa using hb'⟩
            rw [hf, List.mem_singleton] at this
            exact Or.inl (this.trans hmem.symm)
        refine ⟨hv, ?_, hs, ?_, ?_, h.topo.snoc hargs⟩
        · rw [← hcount, hf, hmem]
          simp
        · intro m hm
          rcases List.mem_append.1 hm with hm | hm
          · exact h.sub m hm
          · rw [List.mem_singleton] at hm; rw [hm]; exact hn
        · rw [List.map_append, List.nodup_append]
          refine ⟨h.nodup, by simp, ?_⟩
          rintro x hx y hy rfl
          simp only [List.map_cons, List.map_nil, List.mem_singleton] at hy
          exact hv (hy ▸ hx)
      | a :: b :: l =>
        left
        simp only [sweep, hf]
    · intro hc hargs
      have hall : ∀ a ∈ n.args.filter (fun a => a ∉ acc.map Node.var), a = n.var := by
        intro a ha
        rw [List.mem_filter] at ha
        have h2 : a ∉ acc.map Node.var := by simpa using ha.2
        exact (hargs a ha.1).resolve_right h2
      have hf : n.args.filter (fun a => a ∉ acc.map Node.var) = [n.var] := by
        have hrep := List.eq_replicate_of_mem hall
        rw [hc, hrep, List.count_replicate_self] at hcount
        rw [hrep, hcount]
        rfl
      simp only [sweep, hf]
      simp

/-- A sweep keeps the invariant and what has been found, finds what is ready, and accepts only functions that have their variable
once among their arguments. -/
theorem pass_own {nodes : List (Node V S K)} (hw : Own nodes) :
    ∀ (l : List (Node V S K)) (acc : List (Node V S K)), (∀ n ∈ l, n ∈ nodes) →
      OInv nodes acc → (∀ n ∈ acc, n.args.count n.var = 1) →
      OInv nodes (originalPass (l.map Node.toFactor) acc) ∧
      (∀ n ∈ originalPass (l.map Node.toFactor) acc, n.args.count n.var = 1) ∧
      (∃ more, originalPass (l.map Node.toFactor) acc = acc ++ more) ∧
      (∀ n ∈ l, n.args.count n.var = 1 → (∀ a ∈ n.args, a = n.var ∨ a ∈ acc.map Node.var) →
        n.var ∈ (originalPass (l.map Node.toFactor) acc).map Node.var)
  | [], acc, _, h, hc => ⟨h, hc, ⟨[], by simp [originalPass]⟩, by simp⟩
  | m :: l, acc, hl, h, hc => by
    have hm := hl m List.mem_cons_self
    have hs := sweep_own hw h hm
    have heq : originalPass ((m :: l).map Node.toFactor) acc =
        originalPass (l.map Node.toFactor) (sweep acc m.toFactor) := rfl
    have hacc' : OInv nodes (sweep acc m.toFactor) ∧ (∀ n ∈ sweep acc m.toFactor, n.args.count n.var = 1) ∧
        ∃ more, sweep acc m.toFactor = acc ++ more := by
      rcases hs.1 with h1 | ⟨_, hc', h1, h2⟩
      · rw [h1]; exact ⟨h, hc, [], by simp⟩
      · rw [h1]
        refine ⟨h2, ?_, [m], rfl⟩
        intro n hn
        rcases List.mem_append.1 hn with hn | hn
        · exact hc n hn
        · rw [List.mem_singleton] at hn
          rw [hn]
          exact hc'
    obtain ⟨more, hmore⟩ := hacc'.2.2
    obtain ⟨h1, h2, ⟨more', h3⟩, h4⟩ := pass_own hw l (sweep acc m.toFactor)
      (fun n hn => hl n (List.mem_cons_of_mem _ hn)) hacc'.1 hacc'.2.1
    rw [heq]
    refine ⟨h1, h2, ⟨more ++ more', by rw [h3, hmore, List.append_assoc]⟩, ?_⟩
    intro n hn hcn hargs
    rcases List.mem_cons.1 hn with rfl | hn
    · rw [h3, List.map_append]
      exact List.mem_append_left _ (hs.2 hcn hargs)
    · refine h4 n hn hcn fun a ha => (hargs a ha).imp id fun ha => ?_
      rw [hmore, List.map_append]
      exact List.mem_append_left _ ha

/-- In a network without cycles and unknown arguments some function is ready. -/
theorem exists_ready_own {nodes acc : List (Node V S K)} (hw : Own nodes) (hsub : ∀ n ∈ nodes, ∀ a ∈ n.args, a ∈ nodes.map Node.var)
    (hac : Graph.Acyclic (arrows nodes)) (hl : acc.length < nodes.length) :
    ∃ n ∈ nodes, n.var ∉ acc.map Node.var ∧ ∀ a ∈ n.args, a = n.var ∨ a ∈ acc.map Node.var := by
  by_contra hcon
  push Not at hcon
  let L := (nodes.map Node.var).filter fun v => v ∉ acc.map Node.var
  have hLne : L ≠ [] := by
    intro hL
    have hsub : ∀ v ∈ nodes.map Node.var, v ∈ acc.map Node.var := by
      intro v hv
      by_contra hc
      have : v ∈ L := List.mem_filter.2 ⟨hv, by simpa using hc⟩
      rw [hL] at this
      simp at this
    have := (List.subperm_of_subset hw.nodup hsub).length_le
    simp at this
    omega
  obtain ⟨v, hv⟩ := Graph.exists_cycle_of_pred (R := Graph.EdgeRel (arrows nodes)) L hLne (by
    intro v hv
    rw [List.mem_filter] at hv
    obtain ⟨n, hn, rfl⟩ := List.mem_map.1 hv.1
    have hnv : n.var ∉ acc.map Node.var := by simpa using hv.2
    obtain ⟨a, ha, hav, haa⟩ := hcon n hn hnv
    refine ⟨a, List.mem_filter.2 ⟨hsub n hn a ha, by simpa using haa⟩, ?_⟩
    exact link_arrows.2 ⟨n, hn, rfl, ha, hav⟩)
  exact hac v hv

/-- A list in topological order has no cycle. -/
theorem Topo.acyclic {l : List (Node V S K)} (ht : Topo l) (hn : (l.map Node.var).Nodup) : Graph.Acyclic (arrows l) := by
  have h : ∀ (k : ℕ) (pre : List (Node V S K)), pre.length = k → pre <+: l →
      ∀ u w, Graph.EdgeRel (arrows l) u w → w ∈ pre.map Node.var → u ∈ (pre.dropLast).map Node.var := by
    intro k
    induction k with
    | zero =>
      intro pre hk _ u w _ hw
      rw [List.length_eq_zero_iff.1 hk] at hw
      simp at hw
    | succ k ih =>
      intro pre hk hpre u w huw hw
      rcases List.eq_nil_or_concat pre with rfl | ⟨p, n, rfl⟩
      · simp at hk
      rw [List.concat_eq_append] at hpre hw hk ⊢
      rw [List.dropLast_concat]
      have hk' : p.length = k := by simpa using hk
      have hp : p <+: l := (List.prefix_append p [n]).trans hpre
      rw [List.map_append, List.mem_append] at hw
      rcases hw with hw | hw
      · have := ih p hk' hp u w huw hw
        obtain ⟨m, hm, hmv⟩ := List.mem_map.1 this
        exact List.mem_map.2 ⟨m, List.dropLast_subset _ hm, hmv⟩
      · obtain ⟨t, rfl⟩ := hpre
        obtain ⟨m, hm, hmw, hum, hne⟩ := link_arrows.1 huw
        have hmn : m = n := by
          refine eq_of_var hn hm (by simp) (hmw.trans ?_)
          simpa using hw
        rw [hmn] at hmw hum
        rcases ht p n t (by simp) u hum with h | h
        · exact absurd (h.trans hmw) hne
        · exact h
  -- by length of the prefix in which the last node of a cycle lies
  have hmem : ∀ (k : ℕ) (pre : List (Node V S K)), pre.length = k → pre <+: l →
      ∀ u w, Relation.TransGen (Graph.EdgeRel (arrows l)) u w → w ∈ pre.map Node.var → u ∈ pre.dropLast.map Node.var := by
    intro k pre hk hpre u w huw
    induction huw with
    | single h' => exact h k pre hk hpre _ _ h'
    | tail _ h' ih =>
      intro hw
      refine ih ?_
      have := h k pre hk hpre _ _ h' hw
      obtain ⟨m, hm, hmv⟩ := List.mem_map.1 this
      exact List.mem_map.2 ⟨m, List.dropLast_subset _ hm, hmv⟩
  intro v hv
  have hvl : v ∈ l.map Node.var := by
    obtain ⟨b, -, hb⟩ := Relation.TransGen.tail'_iff.1 hv
    obtain ⟨n, hn, hnv, -, -⟩ := link_arrows.1 hb
    exact List.mem_map.2 ⟨n, hn, hnv⟩
  have hall : ∀ k : ℕ, ∀ pre : List (Node V S K), pre.length = k → pre <+: l → v ∉ pre.map Node.var := by
    intro k
    induction k with
    | zero =>
      intro pre hk _
      rw [List.length_eq_zero_iff.1 hk]
      simp
    | succ k ih =>
      intro pre hk hpre hv'
      have := hmem _ pre rfl hpre v v hv hv'
      exact ih pre.dropLast (by rw [List.length_dropLast, hk]; rfl) ((List.dropLast_prefix _).trans hpre) this
  exact hall _ l rfl List.prefix_rfl hvl

/-! ### The loop -/

theorem pass_extends (fs : List (Factor V S K)) (acc : List (Node V S K)) : ∃ more, originalPass fs acc = acc ++ more := by
  induction fs generalizing acc with
  | nil => exact ⟨[], by simp [originalPass]⟩
  | cons f fs ih =>
    have h1 : ∃ more, sweep acc f = acc ++ more := by
      unfold sweep
      split
      · exact ⟨_, rfl⟩
      · exact ⟨[], by simp⟩
    obtain ⟨m, hm⟩ := h1
    obtain ⟨m', hm'⟩ := ih (sweep acc f)
    exact ⟨m ++ m', by rw [show originalPass (f :: fs) acc = originalPass fs (sweep acc f) from rfl, hm', hm, List.append_assoc]⟩

/-- The loop of the model is the loop of the program: it returns what the first sweep with enough entries leaves, and if no sweep
has enough entries it does not return. -/
theorem originalLoop_iff (fs : List (Factor V S K)) : ∀ (fuel : ℕ) (acc : List (Node V S K)), fs.length ≤ fuel + acc.length →
    (∃ n, originalLoop fs fuel acc = .ok ((originalPass fs)^[n] acc) ∧ fs.length ≤ ((originalPass fs)^[n] acc).length ∧
      ∀ m < n, ((originalPass fs)^[m] acc).length < fs.length) ∨
    (originalLoop fs fuel acc = .error .diverges ∧ ∀ n, ((originalPass fs)^[n] acc).length < fs.length)
  | 0, acc, h => by
    refine Or.inl ⟨0, ?_, by simpa using h, by simp⟩
    rw [originalLoop, if_neg (by omega)]
    rfl
  | fuel + 1, acc, h => by
    by_cases hlt : acc.length < fs.length
    · obtain ⟨more, hm⟩ := pass_extends fs acc
      rw [originalLoop, if_pos hlt]
      by_cases hl : (originalPass fs acc).length = acc.length
      · rw [if_pos hl]
        refine Or.inr ⟨rfl, fun n => ?_⟩
        have hfix : originalPass fs acc = acc := by
          rw [hm, List.length_append] at hl
          rw [hm, List.length_eq_zero_iff.1 (show more.length = 0 by omega), List.append_nil]
        rw [Function.iterate_fixed hfix]
        exact hlt
      · rw [if_neg hl]
        have hgt : acc.length + 1 ≤ (originalPass fs acc).length := by
          rw [hm, List.length_append] at hl ⊢
          omega
        rcases originalLoop_iff fs fuel (originalPass fs acc) (by omega) with ⟨n, h1, h2, h3⟩ | ⟨h1, h2⟩
        · refine Or.inl ⟨n + 1, h1, h2, ?_⟩
          intro m hmn
          cases m with
          | zero => exact hlt
          | succ m => exact h3 m (by omega)
        · refine Or.inr ⟨h1, ?_⟩
          intro n
          cases n with
          | zero => exact hlt
          | succ n => exact h2 n
    · refine Or.inl ⟨0, ?_, by simpa using hlt, by simp⟩
      rw [originalLoop, if_neg hlt]
      rfl

theorem iterate_own {nodes : List (Node V S K)} (hw : Own nodes) (n : ℕ) :
    OInv nodes ((originalPass (nodes.map Node.toFactor))^[n] []) ∧
      ∀ m ∈ (originalPass (nodes.map Node.toFactor))^[n] [], m.args.count m.var = 1 := by
  induction n with
  | zero => exact ⟨⟨by simp, by simp, Topo.nil⟩, by simp⟩
  | succ n ih =>
    rw [Function.iterate_succ_apply']
    obtain ⟨h1, h2, -⟩ := pass_own hw nodes _ (fun _ h => h) ih.1 ih.2
    exact ⟨h1, h2⟩

/-- When the search comes to an end: no cycle, no unknown argument, and no function that has its own variable twice. -/
theorem search_ends_iff {nodes : List (Node V S K)} (hw : Own nodes) :
    (∃ n, nodes.length ≤ ((originalPass (nodes.map Node.toFactor))^[n] []).length) ↔
      (∀ n ∈ nodes, n.args.count n.var = 1) ∧ (∀ n ∈ nodes, ∀ a ∈ n.args, a ∈ nodes.map Node.var) ∧ Graph.Acyclic (arrows nodes) := by
  constructor
  · rintro ⟨k, hk⟩
    obtain ⟨h1, h2⟩ := iterate_own hw k
    have hp := h1.perm hk
    refine ⟨fun n hn => h2 n (hp.mem_iff.2 hn), ?_, ?_⟩
    · intro n hn a ha
      exact (hp.map Node.var).mem_iff.1 (h1.closed n (hp.mem_iff.2 hn) a ha)
    · have hA := h1.topo.acyclic h1.nodup
      intro v hv
      refine hA v (hv.lift id ?_)
      intro a b hab
      obtain ⟨n, hn, h3⟩ := link_arrows.1 hab
      exact link_arrows.2 ⟨n, hp.mem_iff.2 hn, h3⟩
  · rintro ⟨hc, hsub, hac⟩
    have hgrow : ∀ k : ℕ, k ≤ nodes.length → k ≤ ((originalPass (nodes.map Node.toFactor))^[k] []).length := by
      intro k
      induction k with
      | zero => simp
      | succ k ih =>
        intro hk
        have hk' := ih (by omega)
        obtain ⟨h1, h2⟩ := iterate_own hw k
        rw [Function.iterate_succ_apply']
        obtain ⟨g1, g2, ⟨more, g3⟩, g4⟩ := pass_own hw nodes _ (fun _ h => h) h1 h2
        by_cases hlt : ((originalPass (nodes.map Node.toFactor))^[k] []).length < nodes.length
        · obtain ⟨n, hn, hnv, hargs⟩ := exists_ready_own hw hsub hac hlt
          have hin := g4 n hn (hc n hn) hargs
          rw [g3, List.length_append]
          have : more ≠ [] := by
            rintro rfl
            rw [g3, List.append_nil] at hin
            exact hnv hin
          have := List.length_pos_iff.2 this
          omega
        · rw [g3, List.length_append]
          omega
    exact ⟨nodes.length, hgrow _ le_rfl⟩

end

/-! ### Dicts of conditional probabilities -/

section
variable {V S K : Type} [LinearOrder V] [DecidableEq S]

/-- Specification: the parents of a variable, as named in the last entry of its list that gives a probability. -/
def namedParents (rows : List (CondRow V S K)) : List V :=
  ((rows.filter fun r => r.probs ≠ []).getLast?.map fun r => r.givens.map Prod.fst).getD []

/-- Specification: the graph that a dict describes. -/
def dictGraph (conds : List (V × List (CondRow V S K))) : List (V × V) :=
  conds.flatMap fun q => (namedParents q.2).map fun p => (p, q.1)

theorem makeNodeFunc_args {v : V} {rows : List (CondRow V S K)} {f : CondFn V S K} (h : makeNodeFunc v rows = some f) :
    f.args = (namedParents rows).insertionSort (· ≤ ·) ++ [v] := by
  unfold makeNodeFunc at h
  rw [Option.map_eq_some_iff] at h
  obtain ⟨k, hk, rfl⟩ := h
  have key : ∀ rows : List (CondRow V S K), (condEntries v rows).getLast?.map (fun k => k.1.map Prod.fst) =
      (rows.filter fun r => r.probs ≠ []).getLast?.map fun r => (r.givens.map Prod.fst).insertionSort (· ≤ ·) ++ [v] := by
    intro rows
    induction rows using List.reverseRecOn with
    | nil => rfl
    | append_singleton rows r ih =>
      unfold condEntries at ih ⊢
      rw [List.flatMap_append, List.filter_append]
      rcases List.eq_nil_or_concat r.probs with hp | ⟨l, q, hp⟩
      · rw [show [r].filter (fun r => decide (r.probs ≠ [])) = [] by simp [hp]]
        simp only [List.flatMap_cons, List.flatMap_nil, hp, List.map_nil, List.append_nil]
        exact ih
      · rw [show [r].filter (fun r => decide (r.probs ≠ [])) = [r] by simp [hp]]
        simp only [List.flatMap_cons, List.flatMap_nil, hp, List.append_nil, List.concat_eq_append, List.map_append, List.map_cons,
          List.map_nil]
        rw [← List.append_assoc, List.getLast?_concat, List.getLast?_concat]
        simp only [Option.map_some, List.map_append, List.map_cons, List.map_nil]
        rw [map_fst_sampleKey]
  have := key rows
  rw [hk, Option.map_some] at this
  unfold namedParents
  cases hl : (rows.filter fun r => r.probs ≠ []).getLast? with
  | none => rw [hl] at this; cases this
  | some r =>
    rw [hl] at this
    simpa using this

variable [Field K]

theorem condFns_nodes {conds : List (V × List (CondRow V S K))} {fs : List (CondFn V S K)} (h : condFns conds = some fs) :
    ∃ nodes : List (Node V S K), nodes.map Node.toFactor = fs.map CondFn.toFactor ∧
      List.Forall₂ (fun q n => n.var = q.1 ∧ n.args = (namedParents q.2).insertionSort (· ≤ ·) ++ [q.1]) conds nodes := by
  unfold condFns at h
  induction conds generalizing fs with
  | nil =>
    simp only [List.mapM_nil, Option.pure_def, Option.some.injEq] at h
    subst h
    exact ⟨[], rfl, List.Forall₂.nil⟩
  | cons q conds ih =>
    rw [List.mapM_cons] at h
    cases hq : makeNodeFunc q.1 q.2 with
    | none => rw [hq] at h; cases h
    | some f =>
      rw [hq] at h
      cases hl : (conds.mapM fun q => makeNodeFunc q.1 q.2) with
      | none => rw [hl] at h; cases h
      | some gs =>
        rw [hl] at h
        have hfs : f :: gs = fs := by
          injection h
        subst hfs
        obtain ⟨nodes, h1, h2⟩ := ih hl
        refine ⟨⟨f.toFactor, q.1⟩ :: nodes, by rw [List.map_cons, List.map_cons, h1], List.Forall₂.cons ⟨rfl, ?_⟩ h2⟩
        exact makeNodeFunc_args hq

/-- **C103.** Building a network from a dict, every variable of which has a probability, returns iff every parent named in the dict is a
variable of the dict and no variable is its own ancestor.  Otherwise it neither returns nor raises: after any number of rounds
of its search there is a variable left whose function has not been found. -/
theorem conditionals_build_returns_iff {conds : List (V × List (CondRow V S K))} (hne : conds ≠ []) (hnames : (conds.map Prod.fst).Nodup)
    (hp : ∀ q ∈ conds, ∃ r ∈ q.2, r.probs ≠ []) :
    ((∃ nodes, buildConditionals conds = .ok nodes) ↔
      (∀ q ∈ conds, ∀ p ∈ namedParents q.2, p ∈ conds.map Prod.fst) ∧ Graph.Acyclic (dictGraph conds)) ∧
    ((∃ nodes, buildConditionals conds = .ok nodes) ∨
      (buildConditionals conds = .error (.of .diverges) ∧ ∃ fs, condFns conds = some fs ∧ fs.length = conds.length ∧
        ∀ n, ((originalPass (fs.map CondFn.toFactor))^[n] []).length < conds.length)) := by
  have hbound : buildConditionals conds ≠ .error .unbound := by
    intro h
    obtain ⟨q, hq, hr⟩ := (conditionals_unbound_iff conds).1 h
    obtain ⟨r, hrm, hrp⟩ := hp q hq
    exact hrp (hr r hrm)
  cases hf : condFns conds with
  | none =>
    unfold buildConditionals at hbound
    rw [hf] at hbound
    exact absurd rfl hbound
  | some fs =>
    obtain ⟨nodes, h1, h2⟩ := condFns_nodes hf
    have hvars : nodes.map Node.var = conds.map Prod.fst := by
      clear h1 hf hbound hp hnames hne
      induction h2 with
      | nil => rfl
      | cons h _ ih => rw [List.map_cons, List.map_cons, ih, h.1]
    have hlen : nodes.length = conds.length := h2.length_eq.symm
    have hlen' : fs.length = conds.length := by
      have := congrArg List.length h1
      rw [List.length_map, List.length_map] at this
      omega
    have hmem1 : ∀ n ∈ nodes, ∃ q ∈ conds, n.var = q.1 ∧ n.args = (namedParents q.2).insertionSort (· ≤ ·) ++ [q.1] := by
      clear h1 hf hbound hp hnames hne hvars hlen hlen'
      induction h2 with
      | nil => simp
      | cons h _ ih =>
        intro n hn
        rcases List.mem_cons.1 hn with rfl | hn
        · exact ⟨_, List.mem_cons_self, h⟩
        · obtain ⟨q, hq, h'⟩ := ih n hn
          exact ⟨q, List.mem_cons_of_mem _ hq, h'⟩
    have hmem2 : ∀ q ∈ conds, ∃ n ∈ nodes, n.var = q.1 ∧ n.args = (namedParents q.2).insertionSort (· ≤ ·) ++ [q.1] := by
      clear h1 hf hbound hp hnames hne hvars hlen hlen' hmem1
      induction h2 with
      | nil => simp
      | cons h _ ih =>
        intro n hn
        rcases List.mem_cons.1 hn with rfl | hn
        · exact ⟨_, List.mem_cons_self, h⟩
        · obtain ⟨q, hq, h'⟩ := ih n hn
          exact ⟨q, List.mem_cons_of_mem _ hq, h'⟩
    have hown : Own nodes := ⟨hvars ▸ hnames, fun n hn => by
      obtain ⟨q, -, h3, h4⟩ := hmem1 n hn
      rw [h3, h4]
      simp⟩
    have hspec : (∃ k, nodes.length ≤ ((originalPass (nodes.map Node.toFactor))^[k] []).length) ↔
        (∀ q ∈ conds, ∀ p ∈ namedParents q.2, p ∈ conds.map Prod.fst) ∧ Graph.Acyclic (dictGraph conds) := by
      rw [search_ends_iff hown]
      have hedge : (∀ n ∈ nodes, n.args.count n.var = 1) → ∀ u w, (u, w) ∈ dictGraph conds → (u, w) ∈ arrows nodes := by
        intro hc u w h
        unfold dictGraph at h
        rw [List.mem_flatMap] at h
        obtain ⟨q, hq, h⟩ := h
        obtain ⟨p, hp, he⟩ := List.mem_map.1 h
        cases he
        obtain ⟨n, hn, h3, h4⟩ := hmem2 q hq
        refine link_arrows.2 ⟨n, hn, h3, ?_, ?_⟩
        · rw [h4]
          exact List.mem_append_left _ ((List.mem_insertionSort _).2 hp)
        · rintro rfl
          have := hc n hn
          rw [h4, h3, List.count_append, List.count_singleton_self] at this
          have hpos := List.count_pos_iff.2 ((List.mem_insertionSort (r := (· ≤ ·))).2 hp)
          omega
      have hedge' : ∀ u w, (u, w) ∈ arrows nodes → (u, w) ∈ dictGraph conds := by
        intro u w h
        obtain ⟨n, hn, hnv, ha, hne⟩ := link_arrows.1 h
        obtain ⟨q, hq, h3, h4⟩ := hmem1 n hn
        rw [h4, List.mem_append, List.mem_singleton, List.mem_insertionSort] at ha
        unfold dictGraph
        rw [List.mem_flatMap]
        refine ⟨q, hq, List.mem_map.2 ⟨u, ?_, by rw [← hnv, h3]⟩⟩
        refine ha.resolve_right fun h => hne (h.trans (h3.symm.trans hnv))
      constructor
      · rintro ⟨hc, hsub, hac⟩
        refine ⟨?_, ?_⟩
        · intro q hq p hp
          obtain ⟨n, hn, h3, h4⟩ := hmem2 q hq
          rw [← hvars]
          exact hsub n hn p (by rw [h4]; exact List.mem_append_left _ ((List.mem_insertionSort _).2 hp))
        · intro v hv
          exact hac v (hv.lift id fun a b h => hedge hc a b h)
      · rintro ⟨hk, hac⟩
        refine ⟨?_, ?_, ?_⟩
        · intro n hn
          obtain ⟨q, hq, h3, h4⟩ := hmem1 n hn
          rw [h4, h3, List.count_append, List.count_singleton_self]
          have : List.count q.1 ((namedParents q.2).insertionSort (· ≤ ·)) = 0 := by
            rw [List.count_eq_zero, List.mem_insertionSort]
            intro h
            refine hac q.1 (Relation.TransGen.single ?_)
            change (q.1, q.1) ∈ dictGraph conds
            unfold dictGraph
            rw [List.mem_flatMap]
            exact ⟨q, hq, List.mem_map.2 ⟨q.1, h, rfl⟩⟩
          omega
        · intro n hn a ha
          obtain ⟨q, hq, h3, h4⟩ := hmem1 n hn
          rw [h4, List.mem_append, List.mem_singleton, List.mem_insertionSort] at ha
          rw [hvars]
          rcases ha with ha | rfl
          · exact hk q hq a ha
          · exact List.mem_map_of_mem hq
        · intro v hv
          exact hac v (hv.lift id fun a b h => hedge' a b h)
    have hbuild : ∀ r, getOriginalFactors (fs.map CondFn.toFactor) = r →
        buildConditionals conds = (match r with | .error e => .error (.of e) | .ok nodes => .ok nodes) := by
      rintro r rfl
      unfold buildConditionals
      rw [hf]
      dsimp only
      have : ¬ fs.isEmpty = true := by
        rw [List.isEmpty_iff]
        rintro rfl
        exact hne (List.length_eq_zero_iff.1 hlen'.symm)
      rw [if_neg this]
      cases getOriginalFactors (fs.map CondFn.toFactor) <;> rfl
    rw [← hspec, h1]
    have hL : (fs.map CondFn.toFactor).length = conds.length := by rw [List.length_map, hlen']
    rcases originalLoop_iff (fs.map CondFn.toFactor) (fs.map CondFn.toFactor).length [] (by simp) with ⟨n, h3, h4, h5⟩ | ⟨h3, h4⟩
    · have := hbuild _ h3
      exact ⟨⟨fun _ => ⟨n, by rw [hlen, ← hL]; exact h4⟩, fun _ => ⟨_, this⟩⟩, Or.inl ⟨_, this⟩⟩
    · have := hbuild _ h3
      refine ⟨⟨?_, ?_⟩, Or.inr ⟨this, fs, rfl, hlen', fun n => hL ▸ h4 n⟩⟩
      · rintro ⟨nodes', h'⟩
        rw [this] at h'
        cases h'
      · rintro ⟨n, hn⟩
        rw [hlen, ← hL] at hn
        exact absurd (h4 n) (by omega)

/-- **C103.** The empty dict raises `IndexError`, and nothing else does. -/
theorem conditionals_index_iff (conds : List (V × List (CondRow V S K))) :
    buildConditionals conds = .error (.of .indexError) ↔ conds = [] := by
  constructor
  · intro h
    by_contra hne
    unfold buildConditionals at h
    cases hf : condFns conds with
    | none => rw [hf] at h; cases h
    | some fs =>
      rw [hf] at h
      dsimp only at h
      obtain ⟨nodes, h1, h2⟩ := condFns_nodes hf
      have hlen := congrArg List.length h1
      rw [List.length_map, List.length_map, ← h2.length_eq] at hlen
      rw [if_neg] at h
      · rcases originalLoop_iff (fs.map CondFn.toFactor) (fs.map CondFn.toFactor).length [] (by simp) with ⟨n, h3, -⟩ | ⟨h3, -⟩
        · rw [show getOriginalFactors (fs.map CondFn.toFactor) = _ from h3] at h
          cases h
        · rw [show getOriginalFactors (fs.map CondFn.toFactor) = _ from h3] at h
          simp at h
      · rw [List.isEmpty_iff]
        rintro rfl
        exact hne (List.length_eq_zero_iff.1 hlen)
  · rintro rfl
    rfl

end

/-! ### Examples -/

/-- A dict with a misspelt parent: building does not come to an end. -/
example : (∀ q ∈ exConds, ∃ r ∈ q.2, r.probs ≠ []) ∧ (∃ nodes, buildConditionals exConds = .ok nodes) ∧
    buildConditionals ((7, [⟨[(8, true)], [(true, (1 : ℚ))]⟩]) :: exConds) = .error (.of .diverges) := by
  refine ⟨by decide, exConds_good.build.imp fun _ h => h.1, ?_⟩
  have h := conditionals_build_returns_iff (conds := (7, [⟨[(8, true)], [(true, (1 : ℚ))]⟩]) :: exConds) (by simp) (by decide) (by decide)
  rcases h.2 with h' | h'
  · have := (h.1.1 h').1 _ List.mem_cons_self 8 (by decide)
    exact absurd this (by decide)
  · exact h'.1

end Verif.BBN
