import Verif.BBN.Query
import Mathlib.Algebra.BigOperators.Group.Finset.Piecewise

/-!
# The answer of a query is the exact marginal distribution
-/

namespace Verif.BBN
open Function

section
variable {V S K : Type} [LinearOrder V] [DecidableEq S]

/-! ### Worlds and sums -/

theorem sumOver_worlds [AddCommMonoid K] (dom : V → List S) (vs : List V) (f : (V → S) → K)
    (x : V → S) : sumOver dom vs f x = ((worlds dom vs x).map f).sum := by
  induction vs generalizing x with
  | nil => simp [sumOver, worlds]
  | cons v vs ih =>
    simp only [sumOver, worlds, ih, List.map_flatMap]
    induction dom v with
    | nil => simp
    | cons s l ihl => simp [List.flatMap_cons, ihl]

theorem massOf_eq_sumOver [Semiring K] (dom : V → List S) (nodes : List (Node V S K))
    (x₀ : V → S) (A : (V → S) → Prop) [DecidablePred A] :
    massOf dom nodes x₀ A =
      sumOver dom (nodes.map Node.var) (fun x => if A x then joint nodes x else 0) x₀ := by
  rw [sumOver_worlds]
  unfold massOf
  induction worlds dom (nodes.map Node.var) x₀ with
  | nil => rfl
  | cons y l ih =>
    by_cases h : A y
    · simp [h, ih]
    · simp [h, ih]

variable [Field K] [LinearOrder K] [IsStrictOrderedRing K]

/-! ### Initial potentials -/

/-- The evidence factor of a node. -/
def evInd (ev : List (V × S)) (n : Node V S K) (x : V → S) : K :=
  match ev.lookup n.var with
  | some s => if x n.var = s then 1 else 0
  | none => 1

/-- A node's conditional probability, zeroed where it contradicts the evidence. -/
def efn (ev : List (V × S)) (n : Node V S K) (x : V → S) : K :=
  n.fn (n.args.map x) * evInd ev n x

theorem initClique_rep {dom : V → List S} {ev : List (V × S)} {X : List V} (hX : X.Nodup)
    {ns : List (Node V S K)} (h : ∀ n ∈ ns, ∀ a ∈ n.args, a ∈ X)
    (hv : ∀ n ∈ ns, n.var ∈ n.args) {x₀ : V → S} (hx₀ : Valid dom x₀) :
    ∃ tt, initClique dom ev X ns = .ok tt ∧
      Rep dom X tt (fun x => (ns.map fun n => efn ev n x).prod) := by
  obtain ⟨tt, htt, hr⟩ := cliqueTable_rep (dom := dom) hX h hx₀
  refine ⟨_, by simp only [initClique, htt, bind, Except.bind]; rfl, ?_⟩
  have hfold : ∀ (l : List (Node V S K)) (tt : TT V S K) (f : (V → S) → K),
      (∀ n ∈ l, n.var ∈ X) → Rep dom X tt f →
      Rep dom X (l.foldl (fun tt n => match ev.lookup n.var with
        | some s => zeroEvidence tt n.var s
        | none => tt) tt) (fun x => f x * (l.map fun n => evInd ev n x).prod) := by
    intro l
    induction l with
    | nil => intro tt f _ hf; simpa using hf
    | cons n l ih =>
      intro tt f hl hf
      rw [List.foldl_cons]
      have hstep : Rep dom X (match ev.lookup n.var with
          | some s => zeroEvidence tt n.var s
          | none => tt) (fun x => f x * evInd ev n x) := by
        cases he : ev.lookup n.var with
        | none =>
          refine hf.congr fun x _ => ?_
          simp [evInd, he]
        | some s =>
          refine (zeroEvidence_rep hf (hl n List.mem_cons_self) s).congr fun x _ => ?_
          simp only [evInd, he]
          split <;> simp
      refine (ih _ _ (fun m hm => hl m (List.mem_cons_of_mem _ hm)) hstep).congr fun x _ => ?_
      simp [mul_assoc]
  refine (hfold ns tt _ (fun n hn => h n hn _ (hv n hn)) hr).congr fun x _ => ?_
  rw [← List.prod_map_mul]
  rfl

/-- Every node is assigned once, to a clique containing its family. -/
theorem assignClusters_ok {nodes : List (Node V S K)} {jt : JT V} (ht : TreeFacts nodes jt) :
    ∃ home : Node V S K → ℕ,
      assignClusters jt nodes = .ok (nodes.map fun n => (home n, n)) ∧
      ∀ n ∈ nodes, home n < jt.cliques.length ∧ n.args.toFinset ⊆ clq jt.cliques (home n) := by
  let home : Node V S K → ℕ := fun n =>
    (jt.order.filter (fun i => decide (n.args.toFinset ⊆ clq jt.cliques i))).headD 0
  have key : ∀ n ∈ nodes, ∃ l, jt.order.filter
      (fun i => decide (n.args.toFinset ⊆ clq jt.cliques i)) = home n :: l := by
    intro n hn
    obtain ⟨i, hi, hs⟩ := ht.family n hn
    have hio : i ∈ jt.order := ht.junction.order_perm.mem_iff.2 (List.mem_range.2 hi)
    have hm : i ∈ jt.order.filter (fun i => decide (n.args.toFinset ⊆ clq jt.cliques i)) :=
      List.mem_filter.2 ⟨hio, by simpa using hs⟩
    match hf : jt.order.filter (fun i => decide (n.args.toFinset ⊆ clq jt.cliques i)) with
    | [] => rw [hf] at hm; simp at hm
    | a :: l => exact ⟨l, by simp only [home]; rw [hf]; rfl⟩
  refine ⟨home, ?_, ?_⟩
  · apply mapM_ok_of
    intro n hn
    obtain ⟨l, hl⟩ := key n hn
    simp only [hl]
  · intro n hn
    obtain ⟨l, hl⟩ := key n hn
    have hm : home n ∈ jt.order.filter
        (fun i => decide (n.args.toFinset ⊆ clq jt.cliques i)) := by rw [hl]; simp
    rw [List.mem_filter] at hm
    exact ⟨List.mem_range.1 (ht.junction.order_perm.mem_iff.1 hm.1), by simpa using hm.2⟩

omit [LinearOrder K] [IsStrictOrderedRing K] in
theorem prod_range_list (n : ℕ) (f : ℕ → K) :
    ((List.range n).map f).prod = ∏ i ∈ Finset.range n, f i := by
  induction n with
  | zero => simp
  | succ n ih => simp [List.range_succ, Finset.prod_range_succ, ih]

omit [LinearOrder K] [IsStrictOrderedRing K] in
theorem prod_partition {α : Type} (home : α → ℕ) (g : α → K) (n : ℕ) (l : List α)
    (h : ∀ a ∈ l, home a < n) :
    ((List.range n).map fun i => ((l.filter fun a => home a = i).map g).prod).prod =
      (l.map g).prod := by
  rw [prod_range_list]
  induction l with
  | nil => simp
  | cons a l ih =>
    have h1 : ∀ i, (((a :: l).filter fun a => home a = i).map g).prod =
        (if home a = i then g a else 1) * ((l.filter fun a => home a = i).map g).prod := by
      intro i
      by_cases hi : home a = i
      · simp [hi]
      · simp [hi]
    rw [Finset.prod_congr rfl fun i _ => h1 i, Finset.prod_mul_distrib,
      ih fun b hb => h b (List.mem_cons_of_mem _ hb), Finset.prod_ite_eq]
    simp [h a List.mem_cons_self]

/-- The potential of clique `i`. -/
def cliquePot (home : Node V S K → ℕ) (ev : List (V × S)) (nodes : List (Node V S K)) (i : ℕ)
    (x : V → S) : K :=
  ((nodes.filter fun n => home n = i).map fun n => efn ev n x).prod

theorem initPotentials_ok {dom : V → List S} {nodes : List (Node V S K)} (hw : NodesWF nodes)
    {jt : JT V} {home : Node V S K → ℕ}
    (hh : ∀ n ∈ nodes, home n < jt.cliques.length ∧ n.args.toFinset ⊆ clq jt.cliques (home n))
    (ev : List (V × S)) {x₀ : V → S} (hx₀ : Valid dom x₀) :
    ∃ st : PState V S K,
      initPotentials dom jt (nodes.map fun n => (home n, n)) ev = .ok st ∧
      (∀ i, i < jt.cliques.length → CRep dom jt st i (cliquePot home ev nodes i)) ∧
      (∀ e, SRep dom jt st e (fun _ => 1)) := by
  have hns : ∀ i, ((nodes.map fun n => (home n, n)).filter (·.1 = i)).map (·.2) =
      nodes.filter fun n => home n = i := by
    intro i
    rw [List.filter_map, List.map_map]
    simp [Function.comp_def]
  have hargs : ∀ i, ∀ n ∈ nodes.filter (fun n => home n = i), ∀ a ∈ n.args,
      a ∈ names (clq jt.cliques i) := by
    intro i n hn a ha
    rw [List.mem_filter] at hn
    have : home n = i := by simpa using hn.2
    rw [mem_names, ← this]
    exact (hh n hn.1).2 (by simpa using ha)
  have hex : ∀ i, ∃ tt, initClique dom ev (names (clq jt.cliques i))
      (nodes.filter fun n => home n = i) = .ok tt ∧
      Rep dom (names (clq jt.cliques i)) tt (cliquePot home ev nodes i) := fun i =>
    initClique_rep (names_nodup _) (hargs i)
      (fun n hn => hw.var_mem n (List.mem_filter.1 hn).1) hx₀
  choose tab htab hrep using hex
  refine ⟨⟨fun i => ((List.range jt.cliques.length).map tab).getD i [],
    fun e => (perms dom (names (label jt.cliques e))).map fun k => (k, 1)⟩, ?_, ?_, ?_⟩
  · have : (List.range jt.cliques.length).mapM (fun i =>
        initClique dom ev (names (clq jt.cliques i))
          (((nodes.map fun n => (home n, n)).filter (·.1 = i)).map (·.2))) =
        Except.ok ((List.range jt.cliques.length).map tab) := by
      apply mapM_ok_of
      intro i _
      rw [hns]
      exact htab i
    simp only [initPotentials, this, bind, Except.bind]
    rfl
  · intro i hi
    have : ((List.range jt.cliques.length).map tab).getD i [] = tab i := by
      rw [List.getD_eq_getElem?_getD]
      simp [List.getElem?_range hi]
    change Rep dom _ (((List.range jt.cliques.length).map tab).getD i []) _
    rw [this]
    exact hrep i
  · intro e
    exact ones_rep _

theorem efn_dependsOn {ev : List (V × S)} {n : Node V S K} (hv : n.var ∈ n.args) :
    DependsOn (efn ev n) (n.args.toFinset : Set V) := by
  intro x y h
  have h1 : n.args.map x = n.args.map y :=
    List.map_congr_left fun a ha => h a (by simpa using ha)
  have h2 : x n.var = y n.var := h _ (by simpa using hv)
  unfold efn evInd
  rw [h1, h2]

theorem efn_nonneg {dom : V → List S} {nodes : List (Node V S K)} (hn : NonNeg dom nodes)
    {ev : List (V × S)} {n : Node V S K} (hm : n ∈ nodes) {x : V → S} (hx : Valid dom x) :
    0 ≤ efn ev n x := by
  unfold efn
  refine mul_nonneg (hn n hm x fun a _ => hx a) ?_
  unfold evInd
  split
  · split <;> simp
  · simp

theorem list_prod_nonneg {l : List K} (h : ∀ a ∈ l, 0 ≤ a) : 0 ≤ l.prod := by
  induction l with
  | nil => simp
  | cons a l ih =>
    rw [List.prod_cons]
    exact mul_nonneg (h a List.mem_cons_self) (ih fun b hb => h b (List.mem_cons_of_mem _ hb))

theorem lookup_mem {α β : Type} [BEq α] [LawfulBEq α] {l : List (α × β)} {a : α} {b : β}
    (h : l.lookup a = some b) : (a, b) ∈ l := by
  induction l with
  | nil => simp at h
  | cons p l ih =>
    obtain ⟨c, d⟩ := p
    rw [List.lookup_cons] at h
    split at h
    · rename_i hb
      cases h
      have : a = c := by simpa using hb
      rw [this]; exact List.mem_cons_self
    · exact List.mem_cons_of_mem _ (ih h)

/-- The product of the initial potentials of all cliques: the joint probability where the
evidence holds, zero elsewhere. -/
theorem prod_efn {nodes : List (Node V S K)} (hw : NodesWF nodes) {ev : List (V × S)}
    (hk : (ev.map Prod.fst).Nodup) (hev : ∀ p ∈ ev, p.1 ∈ nodes.map Node.var) (x : V → S) :
    (nodes.map fun n => efn ev n x).prod = if Agrees ev x then joint nodes x else 0 := by
  have hsplit : (nodes.map fun n => efn ev n x).prod =
      joint nodes x * (nodes.map fun n => evInd ev n x).prod := by
    unfold joint
    rw [← List.prod_map_mul]
    rfl
  have hind : (nodes.map fun n => evInd ev n x).prod = if Agrees ev x then 1 else 0 := by
    by_cases ha : Agrees ev x
    · rw [if_pos ha]
      apply List.prod_eq_one
      intro c hc
      obtain ⟨n, _, rfl⟩ := List.mem_map.1 hc
      unfold evInd
      cases he : ev.lookup n.var with
      | none => rfl
      | some s =>
        have hm : (n.var, s) ∈ ev := lookup_mem he
        have := ha _ hm
        simp only at this
        simp [this]
    · rw [if_neg ha]
      unfold Agrees at ha
      push Not at ha
      obtain ⟨p, hp, hne⟩ := ha
      obtain ⟨n, hn, hnp⟩ := List.mem_map.1 (hev p hp)
      apply List.prod_eq_zero
      refine List.mem_map.2 ⟨n, hn, ?_⟩
      have : ev.lookup n.var = some p.2 := by
        rw [hnp]
        exact lookup_of_mem_nodup hk hp
      unfold evInd
      rw [this, hnp]
      simp [hne]
  rw [hsplit, hind]
  split <;> simp

/-! ### Marginals -/

/-- The numbers a calibrated tree yields for `v = s`. -/
theorem marg_eq_massOf {dom : V → List S} (hd : ∀ v, (dom v).Nodup)
    {nodes : List (Node V S K)} (hw : NodesWF nodes) (A : (V → S) → Prop)
    [DecidablePred A] {v : V} (hv : v ∈ nodes.map Node.var) {s : S} (hs : s ∈ dom v)
    (x₀ : V → S) :
    sumF dom ((nodes.map Node.var).toFinset \ {v}) (fun x => if A x then joint nodes x else 0)
      (update x₀ v s) = massOf dom nodes x₀ (fun x => A x ∧ x v = s) := by
  rw [massOf_eq_sumOver]
  have hp : (nodes.map Node.var).Perm
      (v :: ((nodes.map Node.var).toFinset \ {v}).sort (· ≤ ·)) := by
    apply (List.perm_ext_iff_of_nodup hw.nodup _).2
    · intro a
      simp only [List.mem_cons, Finset.mem_sort, Finset.mem_sdiff, List.mem_toFinset,
        Finset.mem_singleton]
      constructor
      · intro ha
        by_cases hav : a = v
        · exact Or.inl hav
        · exact Or.inr ⟨ha, hav⟩
      · rintro (rfl | ⟨ha, _⟩)
        · exact hv
        · exact ha
    · refine List.nodup_cons.2 ⟨?_, Finset.sort_nodup _ _⟩
      simp
  rw [sumOver_perm dom hp]
  simp only [sumOver]
  set B := ((nodes.map Node.var).toFinset \ {v}).sort (· ≤ ·) with hB
  have hvB : v ∉ B := by simp [hB]
  have hterm : ∀ t, sumOver dom B (fun x => if A x ∧ x v = s then joint nodes x else 0)
      (update x₀ v t) = if t = s then
        sumOver dom B (fun x => if A x then joint nodes x else 0) (update x₀ v t) else 0 := by
    intro t
    split
    · rename_i hts
      apply sumOver_congr_on
      intro y hy _
      have : y v = s := by rw [hy v hvB]; simp [hts]
      simp [this]
    · rename_i hts
      refine Eq.trans ?_ (sumOver_zero (K := K) dom B (update x₀ v t))
      apply sumOver_congr_on
      intro y hy _
      have : y v ≠ s := by rw [hy v hvB]; simpa using hts
      simp [this]
  rw [List.map_congr_left fun t _ => hterm t]
  rw [sum_ite_eq_of_nodup (hd v) hs
    (fun t => sumOver dom B (fun x => if A x then joint nodes x else 0) (update x₀ v t))]
  rfl

theorem massOf_split {dom : V → List S} (hd : ∀ v, (dom v).Nodup)
    {nodes : List (Node V S K)} (hw : NodesWF nodes) (A : (V → S) → Prop)
    [DecidablePred A] {v : V} (hv : v ∈ nodes.map Node.var) (x₀ : V → S) :
    ((dom v).map fun s => massOf dom nodes x₀ (fun x => A x ∧ x v = s)).sum =
      massOf dom nodes x₀ A := by
  have hp : (nodes.map Node.var).Perm (v :: ((nodes.map Node.var).toFinset \ {v}).sort (· ≤ ·)) := by
    apply (List.perm_ext_iff_of_nodup hw.nodup _).2
    · intro a
      simp only [List.mem_cons, Finset.mem_sort, Finset.mem_sdiff, List.mem_toFinset,
        Finset.mem_singleton]
      constructor
      · intro ha
        by_cases hav : a = v
        · exact Or.inl hav
        · exact Or.inr ⟨ha, hav⟩
      · rintro (rfl | ⟨ha, _⟩)
        · exact hv
        · exact ha
    · refine List.nodup_cons.2 ⟨?_, Finset.sort_nodup _ _⟩
      simp
  conv_rhs => rw [massOf_eq_sumOver, sumOver_perm dom hp]
  simp only [sumOver]
  congr 1
  apply List.map_congr_left
  intro s hs
  rw [← marg_eq_massOf hd hw A hv hs x₀]
  rfl

theorem validateKeyvals_ok {dom : V → List S} {nodes : List (Node V S K)} (ev : List (V × S))
    (h : ∀ p ∈ ev, p.1 ∈ nodes.map Node.var ∧ p.2 ∈ dom p.1) :
    validateKeyvals dom nodes ev = .ok () := by
  induction ev with
  | nil => rfl
  | cons p ev ih =>
    obtain ⟨k, v⟩ := p
    have := h (k, v) List.mem_cons_self
    simp only [validateKeyvals, this.1, this.2, not_true_eq_false, if_false]
    exact ih fun q hq => h q (List.mem_cons_of_mem _ hq)

/-- Marginal table of a variable, as a list of entries. -/
theorem marginal_ok {dom : V → List S} (hd : ∀ v, (dom v).Nodup) {x₀ : V → S}
    (hx₀ : Valid dom x₀) {nodes : List (Node V S K)} {jt : JT V} (hw : NodesWF nodes)
    (ht : TreeFacts nodes jt) {P : (V → S) → K} {st : PState V S K}
    (hst : ∀ i, i < jt.cliques.length → CRep dom jt st i
      (sumF dom (allVars jt.cliques \ clq jt.cliques i) P)) {v : V}
    (hv : v ∈ nodes.map Node.var) :
    ∃ tt, marginal jt st v = .ok tt ∧ ∃ ss : List S, ss.Perm (dom v) ∧
      unpackMarginal tt = ss.map fun s =>
        ((v, s), sumF dom ((nodes.map Node.var).toFinset \ {v}) P (update x₀ v s)) := by
  obtain ⟨n, hn, rfl⟩ := List.mem_map.1 hv
  obtain ⟨i, hi, hs⟩ := ht.family n hn
  have hvi : n.var ∈ clq jt.cliques i := hs (by simpa using hw.var_mem n hn)
  have hio : i ∈ jt.order := ht.junction.order_perm.mem_iff.2 (List.mem_range.2 hi)
  have hm : i ∈ jt.order.filter (fun i => decide (n.var ∈ clq jt.cliques i)) :=
    List.mem_filter.2 ⟨hio, by simpa using hvi⟩
  match hf : jt.order.filter (fun i => decide (n.var ∈ clq jt.cliques i)) with
  | [] => rw [hf] at hm; simp at hm
  | j :: l =>
    have hj : j ∈ jt.order.filter (fun i => decide (n.var ∈ clq jt.cliques i)) := by
      rw [hf]; simp
    rw [List.mem_filter] at hj
    have hjl := List.mem_range.1 (ht.junction.order_perm.mem_iff.1 hj.1)
    have hjv : n.var ∈ clq jt.cliques j := by simpa using hj.2
    obtain ⟨tt, htt, hr⟩ := project_rep (R := [n.var]) hd (names_nodup (clq jt.cliques j))
      (by simp) (by intro r hr; rw [List.mem_singleton] at hr; rw [hr, mem_names]; exact hjv)
      (hst j hjl) hx₀
    refine ⟨tt, by simp only [marginal, hf, htt], ?_⟩
    have hall : allVars jt.cliques = (nodes.map Node.var).toFinset := by
      ext a
      simp only [allVars, Finset.mem_biUnion, Finset.mem_range, List.mem_toFinset]
      constructor
      · rintro ⟨k, _, hk⟩
        exact ht.vars k a hk
      · intro ha
        obtain ⟨m, hm, rfl⟩ := List.mem_map.1 ha
        obtain ⟨k, hk, hsk⟩ := ht.family m hm
        exact ⟨k, hk, hsk (by simpa using hw.var_mem m hm)⟩
    have hsum : ∀ y, sumOver dom ((names (clq jt.cliques j)).filter (· ∉ [n.var]))
        (sumF dom (allVars jt.cliques \ clq jt.cliques j) P) y =
        sumF dom ((nodes.map Node.var).toFinset \ {n.var}) P y := by
      intro y
      have h1 : sumOver dom ((names (clq jt.cliques j)).filter (· ∉ [n.var]))
          (sumF dom (allVars jt.cliques \ clq jt.cliques j) P) y =
          sumF dom (clq jt.cliques j \ {n.var})
            (sumF dom (allVars jt.cliques \ clq jt.cliques j) P) y := by
        apply sumOver_perm
        apply (List.perm_ext_iff_of_nodup ((names_nodup _).filter _) (Finset.sort_nodup _ _)).2
        intro a
        simp [List.mem_filter, mem_names]
      rw [h1, ← sumF_union]
      · congr 1
        ext a
        rw [← hall]
        simp only [Finset.mem_union, Finset.mem_sdiff, Finset.mem_singleton]
        have : a ∈ clq jt.cliques j → a ∈ allVars jt.cliques := fun h =>
          Finset.mem_biUnion.2 ⟨j, Finset.mem_range.2 hjl, h⟩
        constructor
        · rintro (⟨h1, h2⟩ | ⟨h1, h2⟩)
          · exact ⟨this h1, h2⟩
          · exact ⟨h1, fun h => h2 (h ▸ hjv)⟩
        · rintro ⟨h1, h2⟩
          by_cases ha : a ∈ clq jt.cliques j
          · exact Or.inl ⟨ha, h2⟩
          · exact Or.inr ⟨h1, ha⟩
      · rw [Finset.disjoint_left]
        intro a h1 h2
        exact (Finset.mem_sdiff.1 h2).2 (Finset.mem_sdiff.1 h1).1
    have hr' := hr.congr (g := sumF dom ((nodes.map Node.var).toFinset \ {n.var}) P)
      (fun y _ => hsum y)
    have hmap := hr'.eq_map (by simp) hx₀
    have hkeys := hr'.keys
    have hperms : perms dom [n.var] = (dom n.var).map fun s => [(n.var, s)] := by
      simp only [perms, List.map_cons, List.map_nil]
      induction dom n.var with
      | nil => rfl
      | cons s l ih => simp [List.flatMap_cons, ih]
    -- keys are singletons
    have hsing : ∀ k ∈ tt.map Prod.fst, ∃ s, k = [(n.var, s)] := by
      intro k hk
      have := hkeys.mem_iff.1 hk
      rw [hperms] at this
      obtain ⟨s, _, rfl⟩ := List.mem_map.1 this
      exact ⟨s, rfl⟩
    refine ⟨(tt.map Prod.fst).filterMap fun k => k.head?.map Prod.snd, ?_, ?_⟩
    · have := hkeys.filterMap fun k => k.head?.map Prod.snd
      rw [hperms] at this
      refine this.trans (List.Perm.of_eq ?_)
      induction dom n.var with
      | nil => rfl
      | cons s l ih => simp [ih]
    · unfold unpackMarginal
      conv_lhs => rw [hmap]
      rw [List.filterMap_map, List.map_filterMap]
      apply List.filterMap_congr
      intro k hk
      obtain ⟨s, rfl⟩ := hsing k hk
      simp [ovr]

/-! ### The query -/

/-- The unnormalised answer. -/
def rawAnswer (dom : V → List S) (nodes : List (Node V S K)) (ev : List (V × S)) (x₀ : V → S)
    (v : V) (s : S) : K :=
  massOf dom nodes x₀ (fun x => Agrees ev x ∧ x v = s)

/-- All steps of a query up to normalisation. -/
theorem query_raw {nd : Nondet V} (hnd : nd.Legal) {dom : V → List S} (hd : ∀ v, (dom v).Nodup)
    {x₀ : V → S} (hx₀ : Valid dom x₀) {nodes : List (Node V S K)} (hw : NodesWF nodes)
    (hne : nodes ≠ []) (hc : Connected nodes) (hpos : NonNeg dom nodes) {ev : List (V × S)}
    (hk : (ev.map Prod.fst).Nodup) (hev : ∀ p ∈ ev, p.1 ∈ nodes.map Node.var ∧ p.2 ∈ dom p.1) :
    ∃ ss : V → List S, (∀ n ∈ nodes, (ss n.var).Perm (dom n.var)) ∧
      query nd dom nodes ev = .ok (
        let ms := nodes.flatMap fun n => (ss n.var).map fun s =>
          ((n.var, s), rawAnswer dom nodes ev x₀ n.var s)
        if ev = [] then ms else normalise ms) := by
  obtain ⟨jt, hjt⟩ := (buildJoinTree_ok_iff hnd hw).2 ⟨hne, hc⟩
  have ht := buildJoinTree_facts hnd hw hjt
  obtain ⟨home, hasg, hh⟩ := assignClusters_ok ht
  obtain ⟨st, hst, hcp, hsp⟩ := initPotentials_ok (dom := dom) hw hh ev hx₀
  have hval := validateKeyvals_ok (dom := dom) (nodes := nodes) ev hev
  have hlen : 0 < jt.cliques.length := by
    have := ht.junction.edge_count
    omega
  obtain ⟨start, rest, hord⟩ : ∃ a l, jt.order = a :: l := by
    match ho : jt.order with
    | [] =>
      have := ht.junction.order_perm.length_eq
      rw [ho] at this
      simp at this
      omega
    | a :: l => exact ⟨a, l, rfl⟩
  have hstart : start < jt.cliques.length :=
    List.mem_range.1 (ht.junction.order_perm.mem_iff.1 (by rw [hord]; simp))
  have hdep : ∀ i, DependsOn (cliquePot home ev nodes i) (clq jt.cliques i : Set V) := by
    intro i x y h
    unfold cliquePot
    congr 1
    apply List.map_congr_left
    intro n hn
    rw [List.mem_filter] at hn
    have hi : home n = i := by simpa using hn.2
    refine efn_dependsOn (hw.var_mem n hn.1) fun a ha => h a ?_
    rw [← hi]
    exact (hh n hn.1).2 ha
  have hnn : ∀ i x, Valid dom x → 0 ≤ cliquePot home ev nodes i x := by
    intro i x hx
    unfold cliquePot
    apply list_prod_nonneg
    intro a ha
    obtain ⟨n, hn, rfl⟩ := List.mem_map.1 ha
    exact efn_nonneg hpos (List.mem_filter.1 hn).1 hx
  obtain ⟨st', hprop, hcal⟩ := propagate_junction hd hx₀ ht.junction
    (ord := fun i => nd.setOrd i (neighbours jt.edges i)) (fun i => hnd.ord_perm i _) hdep hnn
    hstart hcp hsp
  have hP : (fun x => ((List.range jt.cliques.length).map fun j =>
      cliquePot home ev nodes j x).prod) =
      fun x => if Agrees ev x then joint nodes x else 0 := by
    funext x
    rw [← prod_efn hw hk (fun p hp => (hev p hp).1) x]
    exact prod_partition home (fun n => efn ev n x) _ nodes fun n hn => (hh n hn).1
  rw [hP] at hcal
  have hmarg : ∀ v, ∃ tt, ∃ ss : List S, v ∈ nodes.map Node.var →
      marginal jt st' v = .ok tt ∧ ss.Perm (dom v) ∧
      unpackMarginal tt = ss.map fun s => ((v, s), rawAnswer dom nodes ev x₀ v s) := by
    intro v
    by_cases hv : v ∈ nodes.map Node.var
    · obtain ⟨tt, h1, ss, h2, h3⟩ := marginal_ok hd hx₀ hw ht hcal hv
      refine ⟨tt, ss, fun _ => ⟨h1, h2, ?_⟩⟩
      rw [h3]
      apply List.map_congr_left
      intro s hs
      rw [marg_eq_massOf hd hw (Agrees ev) hv (h2.mem_iff.1 hs) x₀]
      rfl
    · exact ⟨[], [], fun h => absurd h hv⟩
  choose tt ss hss using hmarg
  refine ⟨ss, fun n hn => (hss n.var (List.mem_map_of_mem hn)).2.1, ?_⟩
  have hms : nodes.mapM (fun n => do
      let tt ← marginal jt st' n.var
      return unpackMarginal tt) = (Except.ok (nodes.map fun n => (ss n.var).map fun s =>
        ((n.var, s), rawAnswer dom nodes ev x₀ n.var s)) : Except Err _) := by
    apply mapM_ok_of
    intro n hn
    have := hss n.var (List.mem_map_of_mem hn)
    rw [this.1]
    simp only [bind, Except.bind, pure, Except.pure]
    rw [this.2.2]
  simp only [bind, Except.bind, pure, Except.pure] at hms
  simp only [query, hval, hjt, hasg, hst, hord, hprop, hms, bind, Except.bind, pure, Except.pure,
    List.flatMap]

theorem sum_filter_var {nodes : List (Node V S K)} (hw : (nodes.map Node.var).Nodup)
    (ss : V → List S) (r : V → S → K) {n : Node V S K} (hn : n ∈ nodes) :
    (((nodes.flatMap fun n => (ss n.var).map fun s => ((n.var, s), r n.var s)).filter
      (·.1.1 = n.var)).map (·.2)).sum = ((ss n.var).map fun s => r n.var s).sum := by
  induction nodes with
  | nil => simp at hn
  | cons m l ih =>
    rw [List.map_cons, List.nodup_cons] at hw
    rw [List.flatMap_cons, List.filter_append, List.map_append, List.sum_append]
    by_cases hmn : m.var = n.var
    · have hnone : ((l.flatMap fun n => (ss n.var).map fun s => ((n.var, s), r n.var s)).filter
          (·.1.1 = n.var)) = [] := by
        rw [List.filter_eq_nil_iff]
        intro a ha
        obtain ⟨k, hk, ha⟩ := List.mem_flatMap.1 ha
        obtain ⟨s, _, rfl⟩ := List.mem_map.1 ha
        simp only [decide_eq_true_eq]
        intro hkn
        exact hw.1 (List.mem_map.2 ⟨k, hk, hkn.trans hmn.symm⟩)
      have hall : (((ss m.var).map fun s => ((m.var, s), r m.var s)).filter (·.1.1 = n.var)) =
          (ss m.var).map fun s => ((m.var, s), r m.var s) := by
        rw [List.filter_eq_self]
        intro a ha
        obtain ⟨s, _, rfl⟩ := List.mem_map.1 ha
        simpa using hmn
      rw [hnone, hall, List.map_map]
      simp [hmn, Function.comp_def]
    · have hnone : (((ss m.var).map fun s => ((m.var, s), r m.var s)).filter
          (·.1.1 = n.var)) = [] := by
        rw [List.filter_eq_nil_iff]
        intro a ha
        obtain ⟨s, _, rfl⟩ := List.mem_map.1 ha
        simpa using hmn
      have hnl : n ∈ l := by
        rcases List.mem_cons.1 hn with rfl | h
        · exact absurd rfl hmn
        · exact h
      rw [hnone, ih hw.2 hnl]
      simp

theorem massOf_nonneg {dom : V → List S} {nodes : List (Node V S K)} (hpos : NonNeg dom nodes)
    {x₀ : V → S} (hx₀ : Valid dom x₀) (A : (V → S) → Prop) [DecidablePred A] :
    0 ≤ massOf dom nodes x₀ A := by
  rw [massOf_eq_sumOver]
  apply sumOver_nonneg dom _ hx₀
  intro x hx
  split
  · apply list_prod_nonneg
    intro a ha
    obtain ⟨n, hn, rfl⟩ := List.mem_map.1 ha
    exact hpos n hn x fun a _ => hx a
  · exact le_rfl

end

end Verif.BBN
