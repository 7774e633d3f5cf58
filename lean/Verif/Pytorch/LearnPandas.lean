import Verif.Pytorch.LearnAcyclic

/-!
# `from_pandas` of the PyTorch version (C43, C61, C63)
-/

namespace Verif.Pytorch

open Verif.Str
open Verif.Notears (Tabu Minimizer InBox RespectsBounds Permitted ofMatrix mem_ofMatrix colIdx translate TabuNamed TabuKnown EdgeNamed)

/-! ### Specification -/

/-- The types by positions are those by names. -/
def SchemaNamed (cols : List Str) (s : Option (List (Str × Alias))) (s' : Option (List (ℕ × Alias))) : Prop :=
  Option.Rel (List.Forall₂ fun p q => cols[q.1]? = some p.1 ∧ q.2 = p.2) s s'

/-- All names with a type are columns. -/
def SchemaKnown (cols : List Str) (s : Option (List (Str × Alias))) : Prop := ∀ l, s = some l → ∀ p ∈ l, p.1 ∈ cols

/-- The name of the `m`-th column of a variable called `v`: the first has the name of the variable. -/
def columnName (v : Str) (m : ℕ) : Str := if m = 0 then v else v ++ natStr m

/-- `f` gives every column of every variable its name. -/
def NamesColumns (cols : List Str) (es : List Enc) (f : ℕ → Str) : Prop :=
  ∀ e ∈ es, ∀ m k : ℕ, e.cols[m]? = some k → ∃ v, cols[e.idx]? = some v ∧ f k = columnName v m

/-- No generated name is the name of a column of the data. -/
def NoClash (cols : List Str) (es : List Enc) : Prop :=
  ∀ e ∈ es, ∀ m, 0 < m → m < e.cols.length → ∀ v, cols[e.idx]? = some v → columnName v m ∉ cols

/-! ### Lemmas -/

theorem mapM_total {α β : Type} {F : α → Except Err β} {G : α → β} {l : List α} (h : ∀ a ∈ l, F a = .ok (G a)) :
    l.mapM F = .ok (l.map G) := by
  induction l with
  | nil => rfl
  | cons a l ih =>
    rw [List.mapM_cons, h a List.mem_cons_self, ih fun b hb => h b (List.mem_cons_of_mem _ hb)]
    rfl

theorem locate_mapM (cols : List Str) (l : List (Str × Alias)) :
    ((∀ p ∈ l, p.1 ∈ cols) → ∃ l', l.mapM (locateCol cols) = .ok l' ∧ List.Forall₂ (fun p q => colIdx cols p.1 = some q.1 ∧ q.2 = p.2) l l') ∧
    (¬ (∀ p ∈ l, p.1 ∈ cols) → l.mapM (locateCol cols) = .error .keyError) := by
  induction l with
  | nil => exact ⟨fun _ => ⟨[], rfl, .nil⟩, fun h => absurd (by simp) h⟩
  | cons p l ih =>
    rw [List.mapM_cons]
    by_cases hp : p.1 ∈ cols
    · obtain ⟨i, hi⟩ := Notears.colIdx_mem hp
      rw [show locateCol cols p = .ok (i, p.2) by unfold locateCol; rw [hi]]
      refine ⟨fun h => ?_, fun h => ?_⟩
      · obtain ⟨l', h1, h2⟩ := ih.1 fun q hq => h q (List.mem_cons_of_mem _ hq)
        rw [h1]
        exact ⟨(i, p.2) :: l', rfl, .cons ⟨hi, rfl⟩ h2⟩
      · rw [ih.2]
        · rfl
        · intro h'
          refine h fun q hq => ?_
          rcases List.mem_cons.1 hq with rfl | hq
          · exact hp
          · exact h' q hq
    · rw [show locateCol cols p = .error .keyError by unfold locateCol; rw [Notears.colIdx_not_mem hp]]
      exact ⟨fun h => absurd (h p List.mem_cons_self) hp, fun _ => rfl⟩

theorem locateSchema_total (cols : List Str) (s : Option (List (Str × Alias))) :
    (SchemaKnown cols s → ∃ s', locateSchema cols s = .ok s' ∧ SchemaNamed cols s s') ∧
    (¬ SchemaKnown cols s → locateSchema cols s = .error .keyError) := by
  cases s with
  | none => exact ⟨fun _ => ⟨none, rfl, .none⟩, fun h => absurd (fun l hl => by cases hl) h⟩
  | some l =>
    refine ⟨fun h => ?_, fun h => ?_⟩
    · obtain ⟨l', h1, h2⟩ := (locate_mapM cols l).1 (h l rfl)
      refine ⟨some l', ?_, .some (h2.imp fun p q hpq => ⟨Notears.colIdx_some hpq.1, hpq.2⟩)⟩
      unfold locateSchema
      simp only [h1]
      rfl
    · have h1 := (locate_mapM cols l).2 fun h' => h fun l' hl' => by cases hl'; exact h'
      unfold locateSchema
      simp only [h1]
      rfl

theorem locateSchema_of_named {cols : List Str} (hnd : cols.Nodup) {s : Option (List (Str × Alias))} {s' : Option (List (ℕ × Alias))}
    (h : SchemaNamed cols s s') : locateSchema cols s = .ok s' := by
  cases h with
  | none => rfl
  | @some l l' h =>
    have : l.mapM (locateCol cols) = .ok l' := by
      induction h with
      | nil => rfl
      | @cons p q l l' hpq _ ih =>
        rw [List.mapM_cons, ih]
        have : locateCol cols p = .ok q := by
          unfold locateCol
          rw [(Notears.colIdx_nodup hnd).2 hpq.1, ← hpq.2]
        rw [this]; rfl
    unfold locateSchema
    simp only [this]
    rfl

theorem schemaNamed_dict {cols : List Str} {s : Option (List (Str × Alias))} {s' : Option (List (ℕ × Alias))}
    (h : SchemaNamed cols s s') (hs : ∀ l, s = some l → (l.map Prod.fst).Nodup) : SchemaDict s' := by
  intro l' hl'
  subst hl'
  cases h with
  | @some l _ h =>
    have := hs l rfl
    clear hs
    induction h with
    | nil => simp
    | @cons p q l l' hpq hl ih =>
      rw [List.map_cons, List.nodup_cons] at this ⊢
      refine ⟨fun hm => this.1 ?_, ih this.2⟩
      obtain ⟨q', hq', he⟩ := List.mem_map.1 hm
      clear ih this hm
      induction hl with
      | nil => simp at hq'
      | @cons p2 q2 l l' h2 _ ih =>
        rcases List.mem_cons.1 hq' with rfl | hq'
        · rw [he, hpq.1] at h2
          rw [List.map_cons, Option.some.inj h2.1]; exact List.mem_cons_self
        · rw [List.map_cons]; exact List.mem_cons_of_mem _ (ih hq')

theorem forall₂_left {α β : Type} {R : α → β → Prop} {l : List α} {l' : List β} (h : List.Forall₂ R l l') {a : α} (ha : a ∈ l) :
    ∃ b ∈ l', R a b := by
  induction h with
  | nil => simp at ha
  | cons h1 _ ih =>
    rcases List.mem_cons.1 ha with rfl | ha
    · exact ⟨_, List.mem_cons_self, h1⟩
    · obtain ⟨b, hb, h⟩ := ih ha; exact ⟨b, List.mem_cons_of_mem _ hb, h⟩

theorem forall₂_right {α β : Type} {R : α → β → Prop} {l : List α} {l' : List β} (h : List.Forall₂ R l l') {b : β} (hb : b ∈ l') :
    ∃ a ∈ l, R a b := by
  induction h with
  | nil => simp at hb
  | cons h1 _ ih =>
    rcases List.mem_cons.1 hb with rfl | hb
    · exact ⟨_, List.mem_cons_self, h1⟩
    · obtain ⟨a, ha, h⟩ := ih hb; exact ⟨a, List.mem_cons_of_mem _ ha, h⟩

theorem inOpt_named {α β : Type} {R : α → β → Prop} {o : Option (List α)} {o' : Option (List β)} (h : Option.Rel (List.Forall₂ R) o o')
    {a : α} {b : β} (hl : ∀ b', R a b' → b' = b) (hr : ∀ a', R a' b → a' = a) : InOpt a o ↔ InOpt b o' := by
  cases h with
  | none => simp [InOpt]
  | some h =>
    unfold InOpt
    constructor
    · rintro ⟨x, hx, ha⟩
      cases hx
      obtain ⟨b', hb', hR⟩ := forall₂_left h ha
      rw [hl b' hR] at hb'
      exact ⟨_, rfl, hb'⟩
    · rintro ⟨x, hx, hb⟩
      cases hx
      obtain ⟨a', ha', hR⟩ := forall₂_right h hb
      rw [hr a' hR] at ha'
      exact ⟨_, rfl, ha'⟩

/-- Permission by names and by positions. -/
theorem permitted_named {cols : List Str} (hnd : cols.Nodup) {t : Tabu Str} {t' : Tabu ℕ} (h : TabuNamed cols t t') {u v : Str}
    {i j : ℕ} (hi : cols[i]? = some u) (hj : cols[j]? = some v) : Permitted t' i j ↔ Permitted t u v := by
  have inj : ∀ {i j : ℕ} {u : Str}, cols[i]? = some u → cols[j]? = some u → i = j := by
    intro i j u h1 h2
    have := (Notears.colIdx_nodup hnd).2 h1
    rw [(Notears.colIdx_nodup hnd).2 h2] at this
    exact (Option.some.inj this).symm
  have fn : ∀ {i : ℕ} {u v : Str}, cols[i]? = some u → cols[i]? = some v → u = v := by
    intro i u v h1 h2; rw [h1] at h2; exact Option.some.inj h2
  rw [permitted_iff, permitted_iff]
  have h0 : i ≠ j ↔ u ≠ v := by
    constructor
    · rintro h rfl; exact h (inj hi hj)
    · rintro h rfl; exact h (fn hi hj)
  rw [h0, inOpt_named h.edges (a := (u, v)) (b := (i, j)), inOpt_named h.parents (a := u) (b := i), inOpt_named h.children (a := v) (b := j)]
  · intro b hb; exact inj hb hj
  · intro a ha; exact fn ha hj
  · intro b hb; exact inj hb hi
  · intro a ha; exact fn ha hi
  · rintro ⟨b1, b2⟩ ⟨hb1, hb2⟩; exact Prod.ext (inj hb1 hi) (inj hb2 hj)
  · rintro ⟨a1, a2⟩ ⟨ha1, ha2⟩; exact Prod.ext (fn ha1 hi) (fn ha2 hj)

theorem tabuNamed_below {cols : List Str} {t : Tabu Str} {t' : Tabu ℕ} (h : TabuNamed cols t t') : TabuBelow cols.length t' := by
  have lt : ∀ {i : ℕ} {u : Str}, cols[i]? = some u → i < cols.length := fun h => (List.getElem?_eq_some_iff.1 h).1
  obtain ⟨h1, h2, h3⟩ := h
  generalize t.edges = o1 at h1
  generalize t.parents = o2 at h2
  generalize t.children = o3 at h3
  refine ⟨?_, ?_, ?_⟩
  · intro te hte e he
    rw [hte] at h1
    cases h1 with
    | some h1 => obtain ⟨a, -, ha⟩ := forall₂_right h1 he; exact ⟨lt ha.1, lt ha.2⟩
  · intro te hte e he
    rw [hte] at h2
    cases h2 with
    | some h2 => obtain ⟨a, -, ha⟩ := forall₂_right h2 he; exact lt ha
  · intro te hte e he
    rw [hte] at h3
    cases h3 with
    | some h3 => obtain ⟨a, -, ha⟩ := forall₂_right h3 he; exact lt ha

theorem byName_eq {α : Type} {d : ℕ} {names : Names} {f : ℕ → Option α} {k : ℕ} {s : Str} (hk : k < d)
    (hinj : ∀ i j, i < d → j < d → names i = names j → i = j) (hs : names k = some s) : byName d names f s = f k := by
  unfold byName
  induction d with
  | zero => omega
  | succ d ih =>
    rw [List.range_succ, List.foldl_append, List.foldl_cons, List.foldl_nil]
    by_cases hd : names d = some s
    · rw [if_pos hd, hinj k d hk (by omega) (by rw [hs, hd])]
    · rw [if_neg hd]
      have : k ≠ d := by rintro rfl; exact hd hs
      exact ih (by omega) fun i j hi hj => hinj i j (by omega) (by omega)

theorem addLEdge_nodup {es : List (LEdge Str)} {acc : List (LEdge Str)}
    (h : ((acc ++ es).map fun e => (e.src, e.dst)).Nodup) : es.foldl addLEdge acc = acc ++ es := by
  induction es generalizing acc with
  | nil => simp
  | cons e es ih =>
    rw [List.foldl_cons]
    have hstep : addLEdge acc e = acc ++ [e] := by
      unfold addLEdge
      rw [if_neg]
      rw [Bool.not_eq_true, List.any_eq_false]
      intro y hy
      simp only [decide_eq_true_eq]
      rintro ⟨h1, h2⟩
      rw [List.map_append, List.nodup_append] at h
      refine h.2.2 (y.src, y.dst) (List.mem_map_of_mem (f := fun e => (e.src, e.dst)) hy) (e.src, e.dst) ?_ (by rw [h1, h2])
      rw [List.map_cons]; exact List.mem_cons_self
    rw [hstep, ih]
    · simp
    · simpa using h

theorem fromNumpy_pairs {minimize : Minimizer ℝ} {init : ℕ → ℝ} {fuel : ℕ} {X : Frame} {x : Args ℕ} {g : Learned ℕ}
    (h : fromNumpy minimize init fuel X x = .ok g) : (g.edges.map fun e => (e.src, e.dst)).Nodup := by
  obtain ⟨p, s, -, -, -, rfl⟩ := fromNumpy_ok h
  unfold buildGraph
  simp only [List.map_map]
  refine List.Nodup.sublist ?_ (Notears.ofMatrix_pairs_nodup (archOf x p.data.cols).d
    (adjacency (archOf x p.data.cols) ((archOf x p.data.cols).net s.params) (p.data.rows.map realRow)))
  refine List.Sublist.map _ ?_
  unfold cutEdges
  split
  · exact List.Sublist.refl _
  · split_ifs
    · exact List.filter_sublist
    · exact List.Sublist.refl _

/-! ### The theorems -/

section
variable (minimize : Minimizer ℝ) (init : ℕ → ℝ) (fuel : ℕ) (order : Visit) (X : Table) (x : Args Str)

/-- **C43**: for different column names, `from_pandas` raises `KeyError` for a type or an excluded edge or node given for a name that is
not a column, `ValueError` for columns that are not numeric, and what `from_numpy` raises for the values and positions; otherwise it
succeeds, whatever order the set of types is iterated in. -/
theorem fromPandas_total (horder : ∀ es, (order es).Perm es) (hnd : X.cols.Nodup) (hwf : X.values.WF)
    (hs : ∀ l, x.schema = some l → (l.map Prod.fst).Nodup) :
    (¬ SchemaKnown X.cols x.schema → fromPandas minimize init fuel order X x = .error .keyError) ∧
    (SchemaKnown X.cols x.schema → ¬ (∀ b ∈ X.numeric, b = true) → fromPandas minimize init fuel order X x = .error .valueError) ∧
    (SchemaKnown X.cols x.schema → (∀ b ∈ X.numeric, b = true) → ¬ TabuKnown X.cols x.tabu →
      fromPandas minimize init fuel order X x = .error .keyError) ∧
    (SchemaKnown X.cols x.schema → (∀ b ∈ X.numeric, b = true) → TabuKnown X.cols x.tabu →
      ∃ s t, SchemaNamed X.cols x.schema s ∧ SchemaDict s ∧ TabuNamed X.cols x.tabu t ∧
        (∀ e, fromNumpy minimize init fuel X.values { x with schema := s, tabu := t } = .error e →
          fromPandas minimize init fuel order X x = .error e) ∧
        ∀ g, fromNumpy minimize init fuel X.values { x with schema := s, tabu := t } = .ok g →
          ∃ f g', fromPandas minimize init fuel order X x = .ok g' ∧ NamesColumns X.cols g.encs f ∧
            ((∀ k l, k < g.arch.d → l < g.arch.d → f k = f l → k = l) ↔ NoClash X.cols g.encs) ∧
            g'.arch = g.arch ∧ g'.encs = g.encs ∧ g'.params = g.params ∧ g'.warned = g.warned ∧ g'.rho = g.rho ∧
            g'.collapsed.nodes = X.cols ∧ List.Forall₂ (EdgeNamed X.cols) g.collapsed.edges g'.collapsed.edges ∧
            (∀ n, n ∈ g'.nodes ↔ ∃ k < g.arch.d, n = f k) ∧
            (NoClash X.cols g.encs →
              g'.edges.Perm (g.edges.map fun e => ⟨f e.src, f e.dst, e.weight, e.meanEffect, "learned"⟩) ∧
              ∀ k < g.arch.d, g'.bias (f k) = g.bias k ∧ g'.distType (f k) = g.distType k)) := by
  refine ⟨?_, ?_, ?_, ?_⟩
  · intro h
    unfold fromPandas
    rw [(locateSchema_total X.cols x.schema).2 h]
  · intro h hn
    obtain ⟨s, h1, -⟩ := (locateSchema_total X.cols x.schema).1 h
    unfold fromPandas
    rw [h1]
    simp only
    rw [if_pos]
    push Not at hn
    obtain ⟨b, hb, hb'⟩ := hn
    exact List.any_eq_true.2 ⟨b, hb, by simpa using hb'⟩
  · intro h hn ht
    obtain ⟨s, h1, -⟩ := (locateSchema_total X.cols x.schema).1 h
    unfold fromPandas
    rw [h1]
    simp only
    rw [if_neg, (Notears.translate_total _ _).2 ht]
    · rfl
    · rw [Bool.not_eq_true, List.any_eq_false]
      intro b hb
      simp [hn b hb]
  · intro h hn ht
    obtain ⟨s, h1, h1'⟩ := (locateSchema_total X.cols x.schema).1 h
    obtain ⟨t, h2⟩ := (Notears.translate_total X.cols x.tabu).1 ht
    have hsd := schemaNamed_dict h1' hs
    have hif : ¬ ((X.numeric.any fun b => !b) = true) := by
      rw [Bool.not_eq_true, List.any_eq_false]
      intro b hb
      simp [hn b hb]
    refine ⟨s, t, h1', hsd, Notears.translate_named h2, ?_, ?_⟩
    · intro e he
      unfold fromPandas
      simp only [h1, if_neg hif, h2, he]
    · intro g hg
      have hlt := fromNumpy_edge_lt hg
      have hpairs := fromNumpy_pairs hg
      have hlay := (fromNumpy_layout hwf hsd hg).1
      obtain ⟨p, st, hp, -, -, rfl⟩ := fromNumpy_ok hg
      set a := archOf ({ x with schema := s, tabu := t } : Args ℕ) p.data.cols with ha
      set g := buildGraph X.values.cols a p.encs (p.data.rows.map realRow) x.wThreshold st.params st.warned st.rho with hgdef
      obtain ⟨names, n1, n2, n3, n4⟩ := names_layout X.values s t p hwf hsd hp (fun i => X.cols.getD i []) (order p.encs) (horder _)
      have hstart : (fun i => if i < X.values.cols then some (X.cols.getD i []) else none) = fun i => X.cols[i]? := by
        funext i
        change (if i < X.cols.length then _ else _) = _
        split_ifs with hi
        · rw [List.getD_eq_getElem?_getD, List.getElem?_eq_getElem hi]; rfl
        · rw [List.getElem?_eq_none (by omega)]
      rw [hstart] at n1
      have hget : ∀ i, i < X.cols.length → X.cols[i]? = some (X.cols.getD i []) := by
        intro i hi
        rw [List.getD_eq_getElem?_getD, List.getElem?_eq_getElem hi]; rfl
      have hsome : ∀ k, k < p.data.cols → ∃ n, names k = some n := fun k hk => Option.isSome_iff_exists.1 ((n3 k).2 hk)
      set f : ℕ → Str := fun k => (names k).getD [] with hf
      have hnf : ∀ k, k < p.data.cols → names k = some (f k) := by
        intro k hk
        obtain ⟨n, hn⟩ := hsome k hk
        rw [hf]; simp only [hn]; rfl
      have hclash : (∀ k l, k < p.data.cols → l < p.data.cols → names k = names l → k = l) ↔ NoClash X.cols p.encs := by
        rw [n4]
        constructor
        · rintro ⟨-, h⟩ e he m hm hml v hv hmem
          obtain ⟨j, hj, hj'⟩ := List.mem_iff_getElem.1 hmem
          refine h e he m hm hml j hj ?_
          have hidx := (List.getElem?_eq_some_iff.1 hv).1
          have hv' := hget e.idx hidx
          rw [hv, Option.some.injEq] at hv'
          rw [← hv', List.getD_eq_getElem?_getD, List.getElem?_eq_getElem hj, hj']
          unfold columnName
          rw [if_neg (by omega)]; rfl
        · intro h
          refine ⟨?_, ?_⟩
          · intro i j hi hj hij
            have e1 := (Notears.colIdx_nodup hnd).2 (hget i hi)
            have e2 := (Notears.colIdx_nodup hnd).2 (hget j hj)
            rw [hij, e2] at e1
            exact (Option.some.inj e1).symm
          · intro e he m hm hml j hj heq
            refine h e he m hm hml _ (hget e.idx (hlay.idx_lt he)) ?_
            unfold columnName
            rw [if_neg (by omega), heq]
            exact List.mem_of_getElem? (hget j hj)
      have hfinj : (∀ k l, k < p.data.cols → l < p.data.cols → f k = f l → k = l) ↔
          (∀ k l, k < p.data.cols → l < p.data.cols → names k = names l → k = l) := by
        constructor
        · intro h k l hk hl hkl
          rw [hnf k hk, hnf l hl, Option.some.injEq] at hkl
          exact h k l hk hl hkl
        · intro h k l hk hl hkl
          refine h k l hk hl ?_
          rw [hnf k hk, hnf l hl, hkl]
      have hedges : g.edges.mapM (nameEdge names) = .ok (g.edges.map fun e => ⟨f e.src, f e.dst, e.weight, e.meanEffect, "learned"⟩) := by
        refine mapM_total fun e he => ?_
        obtain ⟨k1, k2⟩ := hlt e he
        simp only [nameEdge, hnf _ k1, hnf _ k2]
      obtain ⟨c, c1, c2, c3⟩ := Notears.rename_nodup hnd (g := g.collapsed) (Notears.ofMatrix_pairs_nodup _ _) (by
        intro e he
        obtain ⟨k1, k2, -⟩ := mem_ofMatrix.1 he
        exact ⟨k1, k2⟩)
      have hren : fromPandas minimize init fuel order X x = .ok
          { nodes := ((List.range g.arch.d).filterMap names).dedup
            edges := order.edges ((g.edges.map fun e => ⟨f e.src, f e.dst, e.weight, e.meanEffect, "learned"⟩).foldl addLEdge [])
            bias := byName g.arch.d names g.bias
            distType := byName g.arch.d names g.distType
            collapsed := c
            arch := g.arch
            encs := g.encs
            params := g.params
            warned := g.warned
            rho := g.rho } := by
        unfold fromPandas
        simp only [h1, if_neg hif, h2, hg]
        unfold renameLearned
        have n1' : updateAllNames (order g.encs) (fun i => X.cols[i]?) = .ok names := n1
        rw [n1']
        simp only [hedges, c1]
      refine ⟨f, _, hren, ?_, ?_, rfl, rfl, rfl, rfl, rfl, c2, c3, ?_, ?_⟩
      · intro e he m k hk
        have := n2 e he m k hk
        refine ⟨X.cols.getD e.idx [], hget _ (hlay.idx_lt he), ?_⟩
        rw [hf]
        simp only [this, Option.getD_some]
        rfl
      · exact hfinj.trans hclash
      · intro n
        rw [List.mem_dedup, List.mem_filterMap]
        constructor
        · rintro ⟨k, hk, hkn⟩
          have hk' : k < p.data.cols := List.mem_range.1 hk
          rw [hnf k hk', Option.some.injEq] at hkn
          exact ⟨k, hk', hkn.symm⟩
        · rintro ⟨k, hk, rfl⟩
          exact ⟨k, List.mem_range.2 hk, hnf k hk⟩
      · intro hnc
        have hinj := hclash.2 hnc
        have hinj' := hfinj.2 hinj
        refine ⟨?_, ?_⟩
        · refine (order.perm _).trans (List.Perm.of_eq (addLEdge_nodup ?_))
          rw [List.nil_append, List.map_map]
          have : (g.edges.map ((fun e : LEdge Str => (e.src, e.dst)) ∘ fun e : LEdge ℕ => ⟨f e.src, f e.dst, e.weight, e.meanEffect, "learned"⟩)) =
              (g.edges.map fun e => (e.src, e.dst)).map fun q => (f q.1, f q.2) := by
            rw [List.map_map]; rfl
          rw [this]
          refine List.Nodup.map_on ?_ hpairs
          rintro ⟨a1, a2⟩ ha ⟨b1, b2⟩ hb hab
          obtain ⟨e, he, hee⟩ := List.mem_map.1 ha
          obtain ⟨e', he', hee'⟩ := List.mem_map.1 hb
          cases hee
          cases hee'
          obtain ⟨q1, q2⟩ := hlt e he
          obtain ⟨q3, q4⟩ := hlt e' he'
          simp only [Prod.mk.injEq] at hab ⊢
          exact ⟨hinj' _ _ q1 q3 hab.1, hinj' _ _ q2 q4 hab.2⟩
        · intro k hk
          exact ⟨byName_eq hk hinj (hnf k hk), byName_eq hk hinj (hnf k hk)⟩

/-- **C61**, data frames: every learned edge goes from a column of a variable `u` to a column of a variable `v` such that the user,
who speaks of names, permits the edge from `u` to `v`. The same for the collapsed graph. -/
theorem fromPandas_permitted (hm : RespectsBounds minimize) (horder : ∀ es, (order es).Perm es) (hnd : X.cols.Nodup) (hwf : X.values.WF)
    (hs : ∀ l, x.schema = some l → (l.map Prod.fst).Nodup) {g : Learned Str} (h : fromPandas minimize init fuel order X x = .ok g)
    (hnc : NoClash X.cols g.encs) :
    (∀ e ∈ g.edges, ∃ a ∈ g.encs, ∃ b ∈ g.encs, ∃ u v, ∃ m n : ℕ, m < a.cols.length ∧ n < b.cols.length ∧ X.cols[a.idx]? = some u ∧
      X.cols[b.idx]? = some v ∧ e.src = columnName u m ∧ e.dst = columnName v n ∧ Permitted x.tabu u v ∧ 0 < e.weight ∧
      (∀ t, x.wThreshold = some t → t ≤ e.weight) ∧ |e.meanEffect| ≤ e.weight ∧ e.origin = "learned") ∧
    (∀ e ∈ g.collapsed.edges, Permitted x.tabu e.src e.dst ∧ 0 < e.weight) := by
  obtain ⟨t1, t2, t3, t4⟩ := fromPandas_total minimize init fuel order X x horder hnd hwf hs
  have hk1 : SchemaKnown X.cols x.schema := by by_contra hn; rw [t1 hn] at h; cases h
  have hk2 : ∀ b ∈ X.numeric, b = true := by by_contra hn; rw [t2 hk1 hn] at h; cases h
  have hk3 : TabuKnown X.cols x.tabu := by by_contra hn; rw [t3 hk1 hk2 hn] at h; cases h
  obtain ⟨s, t, -, hsd, ht, herr, hok⟩ := t4 hk1 hk2 hk3
  cases hg : fromNumpy minimize init fuel X.values { x with schema := s, tabu := t } with
  | error e => rw [herr e hg] at h; cases h
  | ok g0 =>
    obtain ⟨f, g', h1, hnames, -, -, henc, -, -, -, -, hcol, -, hedges⟩ := hok g0 hg
    rw [h] at h1
    cases h1
    rw [henc] at hnc ⊢
    obtain ⟨hE, -⟩ := hedges hnc
    have hbelow : TabuBelow X.values.cols t := tabuNamed_below ht
    refine ⟨?_, ?_⟩
    · intro e he
      rw [hE.mem_iff] at he
      obtain ⟨e0, he0, rfl⟩ := List.mem_map.1 he
      obtain ⟨u, hu, v, hv, hu', hv', hp, hw, hthr, hme, -⟩ :=
        (fromNumpy_edges (x := { x with schema := s, tabu := t }) hm hwf hsd hbelow hg).1 e0 he0
      obtain ⟨m, hm1⟩ := List.getElem?_of_mem hu'
      obtain ⟨n, hn1⟩ := List.getElem?_of_mem hv'
      obtain ⟨nu, hnu, hfu⟩ := hnames u hu m _ hm1
      obtain ⟨nv, hnv, hfv⟩ := hnames v hv n _ hn1
      exact ⟨u, hu, v, hv, nu, nv, m, n, (List.getElem?_eq_some_iff.1 hm1).1, (List.getElem?_eq_some_iff.1 hn1).1, hnu, hnv, hfu, hfv,
        (permitted_named hnd ht hnu hnv).1 hp, hw, hthr, hme, rfl⟩
    · intro e he
      obtain ⟨e0, he0, q1, q2, q3, -⟩ := forall₂_right hcol he
      obtain ⟨hp, hw⟩ := fromNumpy_collapsed_permitted (x := { x with schema := s, tabu := t }) hm hwf hsd hbelow hg e0 he0
      exact ⟨(permitted_named hnd ht q1 q2).1 hp, by rw [q3]; exact hw⟩

end

end Verif.Pytorch
