import Verif.Notears.Props

/-!
# Learning from data frames: C38 and C43
-/

namespace Verif.Notears

section
variable {C : Type} [DecidableEq C]

theorem colIdx_concat (l : List C) (x c : C) :
    colIdx (l ++ [x]) c = if x = c then some l.length else colIdx l c := by
  simp [colIdx, List.zipIdx_append, List.foldl_append]

theorem colIdx_some {l : List C} {c : C} {i : ℕ} (h : colIdx l c = some i) : l[i]? = some c := by
  induction l using List.reverseRecOn with
  | nil => simp [colIdx] at h
  | append_singleton l x ih =>
    rw [colIdx_concat] at h
    split at h
    · rename_i hx
      cases h
      simp [hx]
    · have := ih h
      obtain ⟨hi, -⟩ := List.getElem?_eq_some_iff.1 this
      rw [List.getElem?_append_left hi, this]

theorem colIdx_mem {l : List C} {c : C} (h : c ∈ l) : ∃ i, colIdx l c = some i := by
  induction l using List.reverseRecOn with
  | nil => simp at h
  | append_singleton l x ih =>
    rw [colIdx_concat]
    split
    · exact ⟨_, rfl⟩
    · rename_i hx
      refine ih ?_
      rcases List.mem_append.1 h with h | h
      · exact h
      · simp at h; exact absurd h.symm hx

theorem colIdx_not_mem {l : List C} {c : C} (h : c ∉ l) : colIdx l c = none := by
  cases hc : colIdx l c with
  | none => rfl
  | some i => exact absurd (List.mem_of_getElem? (colIdx_some hc)) h

theorem colIdx_nodup {l : List C} (hl : l.Nodup) {c : C} {i : ℕ} : colIdx l c = some i ↔ l[i]? = some c := by
  refine ⟨colIdx_some, fun h => ?_⟩
  obtain ⟨j, hj⟩ := colIdx_mem (List.mem_of_getElem? h)
  have := colIdx_some hj
  obtain ⟨h1, h2⟩ := List.getElem?_eq_some_iff.1 h
  obtain ⟨h3, h4⟩ := List.getElem?_eq_some_iff.1 this
  rw [hj, (List.Nodup.getElem_inj_iff hl).1 (h2.trans h4.symm)]

theorem idxCol_some {l : List C} {c : C} {i : ℕ} (h : idxCol l i = some c) :
    l[i]? = some c ∧ colIdx l c = some i := by
  unfold idxCol at h
  cases hl : l[i]? with
  | none => rw [hl] at h; cases h
  | some c' =>
    rw [hl] at h
    simp only at h
    split at h
    · cases h
      exact ⟨rfl, by assumption⟩
    · cases h

theorem idxCol_nodup {l : List C} (hl : l.Nodup) (i : ℕ) : idxCol l i = l[i]? := by
  unfold idxCol
  cases h : l[i]? with
  | none => rfl
  | some c =>
    simp only
    rw [if_pos ((colIdx_nodup hl).2 h)]

theorem get_ok {α : Type} {o : Option α} {a : α} : get o = .ok a ↔ o = some a := by
  cases o <;> simp [get]

theorem mapM_ok {α β : Type} {f : α → Except Err β} {l : List α} {l' : List β} :
    l.mapM f = .ok l' ↔ List.Forall₂ (fun a b => f a = .ok b) l l' := by
  induction l generalizing l' with
  | nil =>
    cases l' <;> simp [pure, Except.pure]
  | cons a l ih =>
    rw [List.mapM_cons]
    cases hf : f a with
    | error e =>
      simp only [bind, Except.bind]
      constructor
      · intro h; cases h
      · intro h; cases h with | cons h1 _ => rw [hf] at h1; cases h1
    | ok b =>
      cases hm : l.mapM f with
      | error e =>
        simp only [bind, Except.bind]
        constructor
        · intro h; cases h
        · intro h; cases h with | cons _ h2 => rw [ih.2 h2] at hm; cases hm
      | ok bs =>
        simp only [bind, Except.bind, pure, Except.pure]
        constructor
        · intro h; cases h; exact .cons hf (ih.1 hm)
        · intro h
          cases h with
          | cons h1 h2 =>
            rw [hf] at h1
            cases h1
            rw [ih.2 h2] at hm
            cases hm
            rfl

theorem mapM_get_error {α β : Type} {f : α → Except Err β} (hf : ∀ a e, f a = .error e → e = .keyError)
    {l : List α} {e : Err} (h : l.mapM f = .error e) : e = .keyError := by
  induction l with
  | nil => simp [pure, Except.pure] at h
  | cons a l ih =>
    rw [List.mapM_cons] at h
    cases ha : f a with
    | error e' =>
      rw [ha] at h
      simp only [bind, Except.bind, Except.error.injEq] at h
      subst h
      exact hf _ _ ha
    | ok b =>
      rw [ha] at h
      cases hm : l.mapM f with
      | error e' =>
        rw [hm] at h
        simp only [bind, Except.bind, Except.error.injEq] at h
        subst h
        exact ih hm
      | ok bs => rw [hm] at h; simp [bind, Except.bind, pure, Except.pure] at h

theorem get_error {α : Type} {o : Option α} {e : Err} (h : get o = .error e) : e = .keyError := by
  cases o with
  | none => cases h; rfl
  | some => cases h

/-- The name of an edge is looked up. -/
def edgeIdx (cols : List C) (e : C × C) : Except Err (ℕ × ℕ) := do
  let u ← get (colIdx cols e.1)
  let v ← get (colIdx cols e.2)
  pure (u, v)

theorem edgeIdx_ok {cols : List C} {e : C × C} {e' : ℕ × ℕ} :
    edgeIdx cols e = .ok e' ↔ colIdx cols e.1 = some e'.1 ∧ colIdx cols e.2 = some e'.2 := by
  unfold edgeIdx
  cases h1 : colIdx cols e.1 <;> cases h2 : colIdx cols e.2 <;>
    simp [get, bind, Except.bind, pure, Except.pure, Prod.ext_iff]

theorem edgeIdx_error {cols : List C} {e : C × C} {err : Err} (h : edgeIdx cols e = .error err) :
    err = .keyError := by
  unfold edgeIdx at h
  cases h1 : colIdx cols e.1 <;> cases h2 : colIdx cols e.2 <;>
    simp [h1, h2, get, bind, Except.bind, pure, Except.pure] at h <;> exact h.symm

/-- An optional argument is translated. -/
def trOpt {α β : Type} (f : α → Except Err β) : Option (List α) → Except Err (Option (List β))
  | none => .ok none
  | some l => match l.mapM f with
    | .error e => .error e
    | .ok l' => .ok (some l')

theorem translate_eq (cols : List C) (t : Tabu C) : translate cols t =
    match trOpt (edgeIdx cols) t.edges with
    | .error e => .error e
    | .ok te => match trOpt (fun n => get (colIdx cols n)) t.parents with
      | .error e => .error e
      | .ok tp => match trOpt (fun n => get (colIdx cols n)) t.children with
        | .error e => .error e
        | .ok tc => .ok ⟨te, tp, tc⟩ := by
  obtain ⟨te, tp, tc⟩ := t
  have he : ∀ te : List (C × C), (te.mapM fun e => do
        let u ← get (colIdx cols e.1)
        let v ← get (colIdx cols e.2)
        pure (u, v)) = te.mapM (edgeIdx cols) := fun _ => rfl
  simp only [translate, he]
  generalize (fun n => get (colIdx cols n)) = f
  generalize edgeIdx cols = f'
  cases te with
  | none =>
    cases tp with
    | none =>
      cases tc with
      | none => rfl
      | some tc => simp only [trOpt]; cases tc.mapM f <;> rfl
    | some tp =>
      cases tc with
      | none => simp only [trOpt]; cases tp.mapM f <;> rfl
      | some tc => simp only [trOpt]; cases tp.mapM f <;> cases tc.mapM f <;> rfl
  | some te =>
    cases tp with
    | none =>
      cases tc with
      | none => simp only [trOpt]; cases te.mapM f' <;> rfl
      | some tc => simp only [trOpt]; cases te.mapM f' <;> cases tc.mapM f <;> rfl
    | some tp =>
      cases tc with
      | none => simp only [trOpt]; cases te.mapM f' <;> cases tp.mapM f <;> rfl
      | some tc => simp only [trOpt]; cases te.mapM f' <;> cases tp.mapM f <;> cases tc.mapM f <;> rfl

theorem trOpt_ok {α β : Type} {f : α → Except Err β} {o : Option (List α)} {o' : Option (List β)} :
    trOpt f o = .ok o' ↔ Option.Rel (List.Forall₂ fun a b => f a = .ok b) o o' := by
  cases o with
  | none =>
    constructor
    · intro h; cases h; exact .none
    · intro h; cases h; rfl
  | some l =>
    rw [trOpt]
    cases h : l.mapM f with
    | error e =>
      constructor
      · intro h; cases h
      · intro h'
        cases h' with
        | some h' => rw [mapM_ok.2 h'] at h; cases h
    | ok l' =>
      constructor
      · intro h'; cases h'; exact .some (mapM_ok.1 h)
      · intro h'
        cases h' with
        | some h' => rw [mapM_ok.2 h'] at h; cases h; rfl

/-- The translation in terms of the look-up. -/
theorem translate_ok {cols : List C} {t : Tabu C} {t' : Tabu ℕ} : translate cols t = .ok t' ↔
    Option.Rel (List.Forall₂ fun e e' => edgeIdx cols e = .ok e') t.edges t'.edges ∧
    Option.Rel (List.Forall₂ fun n i => get (colIdx cols n) = .ok i) t.parents t'.parents ∧
    Option.Rel (List.Forall₂ fun n i => get (colIdx cols n) = .ok i) t.children t'.children := by
  rw [← trOpt_ok, ← trOpt_ok, ← trOpt_ok, translate_eq]
  obtain ⟨te, tp, tc⟩ := t'
  cases trOpt (edgeIdx cols) t.edges <;> cases trOpt (fun n => get (colIdx cols n)) t.parents <;>
    cases trOpt (fun n => get (colIdx cols n)) t.children <;> simp

theorem rel_imp {α β : Type} {R S : α → β → Prop} (h : ∀ a b, R a b → S a b) {o : Option (List α)}
    {o' : Option (List β)} (hr : Option.Rel (List.Forall₂ R) o o') : Option.Rel (List.Forall₂ S) o o' := by
  cases hr with
  | none => exact .none
  | some hr => exact .some (hr.imp fun a b => h a b)

theorem translate_named {cols : List C} {t : Tabu C} {t' : Tabu ℕ} (h : translate cols t = .ok t') :
    TabuNamed cols t t' := by
  obtain ⟨h1, h2, h3⟩ := translate_ok.1 h
  refine ⟨rel_imp ?_ h1, rel_imp ?_ h2, rel_imp ?_ h3⟩
  · intro e e' he
    obtain ⟨k1, k2⟩ := edgeIdx_ok.1 he
    exact ⟨colIdx_some k1, colIdx_some k2⟩
  · intro n i hn
    exact colIdx_some (get_ok.1 hn)
  · intro n i hn
    exact colIdx_some (get_ok.1 hn)

theorem translate_of_named {cols : List C} (hnd : cols.Nodup) {t : Tabu C} {t' : Tabu ℕ}
    (h : TabuNamed cols t t') : translate cols t = .ok t' := by
  obtain ⟨h1, h2, h3⟩ := h
  refine translate_ok.2 ⟨rel_imp ?_ h1, rel_imp ?_ h2, rel_imp ?_ h3⟩
  · intro e e' he
    exact edgeIdx_ok.2 ⟨(colIdx_nodup hnd).2 he.1, (colIdx_nodup hnd).2 he.2⟩
  · intro n i hn
    exact get_ok.2 ((colIdx_nodup hnd).2 hn)
  · intro n i hn
    exact get_ok.2 ((colIdx_nodup hnd).2 hn)

theorem trOpt_total {α β : Type} {f : α → Except Err β}
    (hf : ∀ a e, f a = .error e → e = .keyError) (o : Option (List α)) :
    ((∀ l, o = some l → ∀ a ∈ l, ∃ b, f a = .ok b) → ∃ o', trOpt f o = .ok o') ∧
    (¬ (∀ l, o = some l → ∀ a ∈ l, ∃ b, f a = .ok b) → trOpt f o = .error .keyError) := by
  cases o with
  | none => exact ⟨fun _ => ⟨none, rfl⟩, fun h => absurd (fun l hl => by cases hl) h⟩
  | some l =>
    rw [trOpt]
    cases h : l.mapM f with
    | error e =>
      have := mapM_get_error hf h
      subst this
      refine ⟨fun hall => ?_, fun _ => rfl⟩
      exfalso
      have hall := hall l rfl
      have : ∃ l', List.Forall₂ (fun a b => f a = .ok b) l l' := by
        clear h hf
        induction l with
        | nil => exact ⟨[], .nil⟩
        | cons a l ih =>
          obtain ⟨b, hb⟩ := hall a (by simp)
          obtain ⟨l', hl'⟩ := ih (by rintro _ ⟨⟩ x hx; exact hall x (by simp [hx])) fun x hx => hall x (by simp [hx])
          exact ⟨b :: l', .cons hb hl'⟩
      obtain ⟨l', hl'⟩ := this
      rw [mapM_ok.2 hl'] at h
      cases h
    | ok l' =>
      refine ⟨fun _ => ⟨_, rfl⟩, fun hn => ?_⟩
      exfalso
      apply hn
      rintro _ ⟨⟩ a ha
      have h2 := mapM_ok.1 h
      clear h hn
      induction h2 with
      | nil => simp at ha
      | cons h1 _ ih =>
        rcases List.mem_cons.1 ha with rfl | ha
        · exact ⟨_, h1⟩
        · exact ih ha

theorem colIdx_isSome_iff {cols : List C} {n : C} : (∃ i, get (colIdx cols n) = .ok i) ↔ n ∈ cols := by
  constructor
  · rintro ⟨i, h⟩
    exact List.mem_of_getElem? (colIdx_some (get_ok.1 h))
  · intro h
    obtain ⟨i, hi⟩ := colIdx_mem h
    exact ⟨i, get_ok.2 hi⟩

theorem edgeIdx_isSome_iff {cols : List C} {e : C × C} :
    (∃ i, edgeIdx cols e = .ok i) ↔ e.1 ∈ cols ∧ e.2 ∈ cols := by
  constructor
  · rintro ⟨i, h⟩
    obtain ⟨h1, h2⟩ := edgeIdx_ok.1 h
    exact ⟨List.mem_of_getElem? (colIdx_some h1), List.mem_of_getElem? (colIdx_some h2)⟩
  · rintro ⟨h1, h2⟩
    obtain ⟨i, hi⟩ := colIdx_mem h1
    obtain ⟨j, hj⟩ := colIdx_mem h2
    exact ⟨(i, j), edgeIdx_ok.2 ⟨hi, hj⟩⟩

/-- The names are translated if they are all columns; otherwise `KeyError`. -/
theorem translate_total (cols : List C) (t : Tabu C) :
    (TabuKnown cols t → ∃ t', translate cols t = .ok t') ∧
    (¬ TabuKnown cols t → translate cols t = .error .keyError) := by
  have h1 := trOpt_total (f := edgeIdx cols) (fun _ _ h => edgeIdx_error h) t.edges
  have h2 := trOpt_total (f := fun n => get (colIdx cols n)) (fun _ _ h => get_error h) t.parents
  have h3 := trOpt_total (f := fun n => get (colIdx cols n)) (fun _ _ h => get_error h) t.children
  simp only [colIdx_isSome_iff, edgeIdx_isSome_iff] at h1 h2 h3
  rw [translate_eq]
  constructor
  · rintro ⟨k1, k2, k3⟩
    obtain ⟨te, e1⟩ := h1.1 k1
    obtain ⟨tp, e2⟩ := h2.1 k2
    obtain ⟨tc, e3⟩ := h3.1 k3
    rw [e1, e2, e3]
    exact ⟨_, rfl⟩
  · intro hn
    by_cases k1 : ∀ l, t.edges = some l → ∀ a ∈ l, a.1 ∈ cols ∧ a.2 ∈ cols
    · obtain ⟨te, e1⟩ := h1.1 k1
      rw [e1]
      by_cases k2 : ∀ l, t.parents = some l → ∀ a ∈ l, a ∈ cols
      · obtain ⟨tp, e2⟩ := h2.1 k2
        rw [e2]
        by_cases k3 : ∀ l, t.children = some l → ∀ a ∈ l, a ∈ cols
        · exact absurd ⟨k1, k2, k3⟩ hn
        · rw [h3.2 k3]
      · rw [h2.2 k2]
    · rw [h1.2 k1]

/-! ### The renamed graph -/

variable {K : Type} [Field K] [LinearOrder K]

omit [Field K] [LinearOrder K] in
theorem addNodes_edges (g : Graph C K) (ns : List C) : (addNodes g ns).edges = g.edges := by
  unfold addNodes
  induction ns generalizing g with
  | nil => rfl
  | cons n ns ih =>
    rw [List.foldl_cons, ih]
    split <;> rfl

omit [Field K] [LinearOrder K] in
theorem addNodes_of_mem (g : Graph C K) {ns : List C} (h : ∀ n ∈ ns, n ∈ g.nodes) : addNodes g ns = g := by
  unfold addNodes
  induction ns with
  | nil => rfl
  | cons n ns ih =>
    rw [List.foldl_cons, if_pos (h n (by simp))]
    exact ih fun m hm => h m (by simp [hm])

omit [Field K] [LinearOrder K] in
theorem addNodes_nodup (g : Graph C K) {ns : List C} (hns : ns.Nodup) (h : ∀ n ∈ ns, n ∉ g.nodes) :
    (addNodes g ns).nodes = g.nodes ++ ns := by
  unfold addNodes
  induction ns generalizing g with
  | nil => simp
  | cons n ns ih =>
    rw [List.foldl_cons, if_neg (h n (by simp)), ih _ hns.of_cons]
    · simp
    · intro m hm
      simp only [List.mem_append, List.mem_singleton, not_or]
      exact ⟨h m (by simp [hm]), fun he => (List.nodup_cons.1 hns).1 (he ▸ hm)⟩

omit [Field K] [LinearOrder K] in
/-- Edges are those before and those added. -/
theorem mem_addWeightedEdges {o : String} {g : Graph C K} {es : List (C × C × K)} {e : Edge C K}
    (h : e ∈ (addWeightedEdges o g es).edges) : e ∈ g.edges ∨ (e.src, e.dst, e.weight) ∈ es := by
  unfold addWeightedEdges at h
  induction es generalizing g with
  | nil => exact Or.inl h
  | cons x es ih =>
    rw [List.foldl_cons] at h
    rcases ih h with h | h
    · unfold addEdge at h
      simp only [addNodes_edges] at h
      split at h
      · simp only [List.mem_map] at h
        obtain ⟨y, hy, h⟩ := h
        split at h
        · subst h; right; simp
        · subst h; exact Or.inl hy
      · simp only [List.mem_append, List.mem_singleton] at h
        rcases h with h | h
        · exact Or.inl h
        · subst h; right; simp
    · right; simp [h]

omit [Field K] [LinearOrder K] in
theorem addWeightedEdges_nodup {o : String} (g : Graph C K) {es : List (C × C × K)}
    (hnodes : ∀ e ∈ es, e.1 ∈ g.nodes ∧ e.2.1 ∈ g.nodes)
    (hes : (es.map fun e => (e.1, e.2.1)).Nodup)
    (hnew : ∀ e ∈ es, ∀ x ∈ g.edges, ¬ (x.src = e.1 ∧ x.dst = e.2.1)) :
    addWeightedEdges o g es =
      ⟨g.nodes, g.edges ++ es.map fun e => ⟨e.1, e.2.1, e.2.2, o⟩⟩ := by
  unfold addWeightedEdges
  induction es generalizing g with
  | nil => simp
  | cons x es ih =>
    have hstep : addEdge o g x = ⟨g.nodes, g.edges ++ [⟨x.1, x.2.1, x.2.2, o⟩]⟩ := by
      unfold addEdge
      rw [addNodes_of_mem _ (by
        have := hnodes x (by simp)
        simp [this.1, this.2])]
      rw [if_neg]
      rw [Bool.not_eq_true, List.any_eq_false]
      intro y hy
      simpa using hnew x (by simp) y hy
    rw [List.foldl_cons, hstep, ih]
    · simp
    · intro e he
      exact hnodes e (by simp [he])
    · rw [List.map_cons, List.nodup_cons] at hes
      exact hes.2
    · intro e he y hy
      simp only [List.mem_append, List.mem_singleton] at hy
      rcases hy with hy | rfl
      · exact hnew e (by simp [he]) y hy
      · rintro ⟨h1, h2⟩
        rw [List.map_cons, List.nodup_cons] at hes
        apply hes.1
        rw [List.mem_map]
        exact ⟨e, he, by simp only at h1 h2; rw [← h1, ← h2]⟩

/-- The name of a learned edge. -/
def edgeName (cols : List C) (e : Edge ℕ K) : Except Err (C × C × K) := do
  let u ← get (idxCol cols e.src)
  let v ← get (idxCol cols e.dst)
  pure (u, v, e.weight)

omit [Field K] [LinearOrder K] in
theorem edgeName_ok {cols : List C} {e : Edge ℕ K} {x : C × C × K} : edgeName cols e = .ok x ↔
    idxCol cols e.src = some x.1 ∧ idxCol cols e.dst = some x.2.1 ∧ e.weight = x.2.2 := by
  unfold edgeName
  cases h1 : idxCol cols e.src <;> cases h2 : idxCol cols e.dst <;>
    simp [get, bind, Except.bind, pure, Except.pure, Prod.ext_iff]

omit [Field K] [LinearOrder K] in
theorem rename_eq (cols : List C) (g : Graph ℕ K) : rename cols g =
    match g.edges.mapM (edgeName cols) with
    | .error e => .error e
    | .ok es => .ok (addWeightedEdges "learned" (addNodes ⟨[], []⟩ cols) es) := by
  have : rename cols g = (g.edges.mapM (edgeName cols) >>= fun es =>
    pure (addWeightedEdges "learned" (addNodes ⟨[], []⟩ cols) es)) := rfl
  rw [this]
  cases g.edges.mapM (edgeName cols) <;> rfl

omit [Field K] [LinearOrder K] in
/-- Every edge of the renamed graph is one of the learned edges. -/
theorem mem_rename {cols : List C} {g : Graph ℕ K} {g' : Graph C K} (h : rename cols g = .ok g')
    {e' : Edge C K} (he : e' ∈ g'.edges) : ∃ e ∈ g.edges, e.weight = e'.weight ∧
      colIdx cols e'.src = some e.src ∧ colIdx cols e'.dst = some e.dst := by
  rw [rename_eq] at h
  cases hm : g.edges.mapM (edgeName cols) with
  | error e => rw [hm] at h; cases h
  | ok es =>
    rw [hm] at h
    simp only [Except.ok.injEq] at h
    subst h
    rcases mem_addWeightedEdges he with h | h
    · rw [addNodes_edges] at h; simp at h
    · have h2 := mapM_ok.1 hm
      clear hm he
      generalize g.edges = l at h2
      induction h2 with
      | nil => simp at h
      | @cons a b l l' hab _ ih =>
        rcases List.mem_cons.1 h with rfl | h
        · obtain ⟨k1, k2, k3⟩ := edgeName_ok.1 hab
          exact ⟨a, by simp, k3, (idxCol_some k1).2, (idxCol_some k2).2⟩
        · obtain ⟨e, he, h'⟩ := ih h
          exact ⟨e, by simp [he], h'⟩

omit [Field K] [LinearOrder K] in
/-- With distinct column names the renamed graph is the learned graph with names. -/
theorem rename_nodup {cols : List C} (hnd : cols.Nodup) {g : Graph ℕ K}
    (hpairs : (g.edges.map fun e => (e.src, e.dst)).Nodup)
    (hlt : ∀ e ∈ g.edges, e.src < cols.length ∧ e.dst < cols.length) :
    ∃ g', rename cols g = .ok g' ∧ g'.nodes = cols ∧ List.Forall₂ (EdgeNamed cols) g.edges g'.edges := by
  have hname : ∀ e ∈ g.edges, ∃ x, edgeName cols e = .ok x := by
    intro e he
    obtain ⟨h1, h2⟩ := hlt e he
    refine ⟨(cols[e.src], cols[e.dst], e.weight), edgeName_ok.2 ?_⟩
    rw [idxCol_nodup hnd, idxCol_nodup hnd]
    simp [h1, h2]
  obtain ⟨es, hes⟩ : ∃ es, g.edges.mapM (edgeName cols) = .ok es := by
    have := (trOpt_total (f := edgeName (K := K) cols) (fun a e h => by
      unfold edgeName at h
      cases h1 : idxCol cols a.src <;> cases h2 : idxCol cols a.dst <;>
        simp [h1, h2, get, bind, Except.bind, pure, Except.pure] at h <;> exact h.symm)
      (some g.edges)).1 (by rintro _ ⟨⟩; exact hname)
    obtain ⟨o, ho⟩ := this
    rw [trOpt] at ho
    cases hm : g.edges.mapM (edgeName cols) with
    | error e => rw [hm] at ho; cases ho
    | ok es => exact ⟨es, rfl⟩
  have hF := mapM_ok.1 hes
  have hnodes : (addNodes (⟨[], []⟩ : Graph C K) cols).nodes = cols := by
    rw [addNodes_nodup _ hnd (by simp)]; simp
  have hF' : List.Forall₂ (fun (e : Edge ℕ K) (x : C × C × K) => cols[e.src]? = some x.1 ∧
      cols[e.dst]? = some x.2.1 ∧ e.weight = x.2.2) g.edges es :=
    hF.imp fun a b h => by
      obtain ⟨h1, h2, h3⟩ := edgeName_ok.1 h
      exact ⟨(idxCol_some h1).1, (idxCol_some h2).1, h3⟩
  have hmem : ∀ x ∈ es, x.1 ∈ cols ∧ x.2.1 ∈ cols := by
    clear hes hF hpairs hlt hname
    generalize g.edges = l at hF'
    induction hF' with
    | nil => simp
    | cons h _ ih =>
      intro x hx
      rcases List.mem_cons.1 hx with rfl | hx
      · exact ⟨List.mem_of_getElem? h.1, List.mem_of_getElem? h.2.1⟩
      · exact ih x hx
  have hpairs' : (es.map fun x => (x.1, x.2.1)).Nodup := by
    clear hes hF hmem hlt hname
    generalize g.edges = l at hF' hpairs
    induction hF' with
    | nil => simp
    | @cons a b l l' h hl ih =>
      rw [List.map_cons, List.nodup_cons] at hpairs ⊢
      refine ⟨?_, ih hpairs.2⟩
      intro hm
      apply hpairs.1
      rw [List.mem_map] at hm ⊢
      obtain ⟨x, hx, he⟩ := hm
      clear ih
      induction hl with
      | nil => simp at hx
      | @cons a' b' l l' h' _ ih' =>
        rcases List.mem_cons.1 hx with rfl | hx
        · refine ⟨a', by simp, ?_⟩
          have e1 : x.1 = b.1 := (Prod.mk.inj he).1
          have e2 : x.2.1 = b.2.1 := (Prod.mk.inj he).2
          rw [e1] at h'
          rw [e2] at h'
          obtain ⟨p1, p2⟩ := List.getElem?_eq_some_iff.1 h.1
          obtain ⟨q1, q2⟩ := List.getElem?_eq_some_iff.1 h'.1
          obtain ⟨r1, r2⟩ := List.getElem?_eq_some_iff.1 h.2.1
          obtain ⟨s1, s2⟩ := List.getElem?_eq_some_iff.1 h'.2.1
          rw [Prod.mk.injEq]
          exact ⟨(List.Nodup.getElem_inj_iff hnd).1 (q2.trans p2.symm),
            (List.Nodup.getElem_inj_iff hnd).1 (s2.trans r2.symm)⟩
        · obtain ⟨y, hy, hy'⟩ := ih' ⟨fun hm => hpairs.1 (by simp at hm ⊢; exact Or.inr hm),
            (List.nodup_cons.1 hpairs.2).2⟩ hx
          exact ⟨y, by simp [hy], hy'⟩
  refine ⟨_, by rw [rename_eq, hes], ?_, ?_⟩
  · rw [addWeightedEdges_nodup _ (by rw [hnodes]; exact hmem) hpairs' (by simp [addNodes_edges])]
    exact hnodes
  · rw [addWeightedEdges_nodup _ (by rw [hnodes]; exact hmem) hpairs' (by simp [addNodes_edges])]
    simp only [addNodes_edges, List.nil_append]
    rw [List.forall₂_map_right_iff]
    exact hF'.imp fun a b h => ⟨h.1, h.2.1, h.2.2.symm, rfl⟩

/-! ### The theorems -/

/-- What is used of `from_numpy` and `from_numpy_lasso`. -/
structure Learner (learn : Data K → Params K ℕ → Except Err (Graph ℕ K)) : Prop where
  pairs : ∀ X a g, learn X a = .ok g → (g.edges.map fun e => (e.src, e.dst)).Nodup
  lt : ∀ X a g, learn X a = .ok g → ∀ e ∈ g.edges, e.src < X.cols ∧ e.dst < X.cols

theorem fromNumpy_learner (P : Problem K) (minimize : Minimizer K) (fuel : ℕ) :
    Learner (fromNumpy P minimize fuel) := by
  constructor
  · intro X a g h
    obtain ⟨-, -, s, hs, rfl⟩ := fromNumpy_ok.1 h
    exact ofMatrix_pairs_nodup _ _
  · intro X a g h e he
    obtain ⟨-, -, s, hs, rfl⟩ := fromNumpy_ok.1 h
    obtain ⟨h1, h2, -⟩ := mem_ofMatrix.1 he
    exact ⟨h1, h2⟩

theorem fromNumpyLasso_learner (P : Problem K) (minimize : Minimizer K) (fuel : ℕ) :
    Learner (fromNumpyLasso P minimize fuel) := by
  constructor
  · intro X a g h
    obtain ⟨-, -, s, hs, rfl⟩ := fromNumpyLasso_ok.1 h
    exact ofMatrix_pairs_nodup _ _
  · intro X a g h e he
    obtain ⟨-, -, s, hs, rfl⟩ := fromNumpyLasso_ok.1 h
    obtain ⟨h1, h2, -⟩ := mem_ofMatrix.1 he
    exact ⟨h1, h2⟩

/-- **C43**: for distinct column names, learning from a data frame succeeds exactly if all columns are
numeric, all tabu names are columns and learning from the values, with the tabu positions, succeeds; the
result is that graph with the names of the columns, and all columns are nodes. -/
theorem fromPandasWith_ok {learn : Data K → Params K ℕ → Except Err (Graph ℕ K)} (hl : Learner learn)
    {X : DataFrame C K} (hnd : X.cols.Nodup) (a : Params K C) :
    (¬ (∀ b ∈ X.numeric, b = true) → fromPandasWith learn X a = .error .valueError) ∧
    ((∀ b ∈ X.numeric, b = true) → ¬ TabuKnown X.cols a.tabu →
      fromPandasWith learn X a = .error .keyError) ∧
    ((∀ b ∈ X.numeric, b = true) → TabuKnown X.cols a.tabu → ∃ t, TabuNamed X.cols a.tabu t ∧
      (∀ e, learn X.values { a with tabu := t } = .error e → fromPandasWith learn X a = .error e) ∧
      ∀ g, learn X.values { a with tabu := t } = .ok g →
        ∃ g', fromPandasWith learn X a = .ok g' ∧ g'.nodes = X.cols ∧
          List.Forall₂ (EdgeNamed X.cols) g.edges g'.edges) := by
  refine ⟨?_, ?_, ?_⟩
  · intro h
    unfold fromPandasWith
    rw [if_pos]
    push Not at h
    obtain ⟨b, hb, hb'⟩ := h
    exact List.any_eq_true.2 ⟨b, hb, by simpa using hb'⟩
  · intro h ht
    unfold fromPandasWith
    rw [if_neg, (translate_total _ _).2 ht]
    rw [Bool.not_eq_true, List.any_eq_false]
    intro b hb
    simp [h b hb]
  · intro h ht
    obtain ⟨t, htr⟩ := (translate_total X.cols a.tabu).1 ht
    have hif : ¬ ((X.numeric.any fun b => !b) = true) := by
      rw [Bool.not_eq_true, List.any_eq_false]
      intro b hb
      simp [h b hb]
    refine ⟨t, translate_named htr, ?_, ?_⟩
    · intro e he
      unfold fromPandasWith
      rw [if_neg hif, htr]
      simp only [he]
    · intro g hg
      obtain ⟨g', h1, h2, h3⟩ := rename_nodup hnd (hl.pairs _ _ _ hg) (hl.lt _ _ _ hg)
      refine ⟨g', ?_, h2, h3⟩
      unfold fromPandasWith
      rw [if_neg hif, htr]
      simp only [hg, h1]

theorem fromPandasWith_permitted {learn : Data K → Params K ℕ → Except Err (Graph ℕ K)}
    (hl : ∀ X a g, learn X a = .ok g → ∀ e ∈ g.edges, Permitted a.tabu e.src e.dst)
    {X : DataFrame C K} {a : Params K C} {g : Graph C K} (h : fromPandasWith learn X a = .ok g) :
    ∀ e ∈ g.edges, Permitted a.tabu e.src e.dst := by
  unfold fromPandasWith at h
  split at h
  · cases h
  · cases ht : translate X.cols a.tabu with
    | error e => rw [ht] at h; cases h
    | ok t =>
      rw [ht] at h
      simp only at h
      cases hg : learn X.values { a with tabu := t } with
      | error e => rw [hg] at h; cases h
      | ok g0 =>
        rw [hg] at h
        simp only at h
        intro e' he'
        obtain ⟨e, he, -, h1, h2⟩ := mem_rename h he'
        obtain ⟨p1, p2, p3, p4⟩ := hl _ _ _ hg e he
        obtain ⟨t1, t2, t3⟩ := translate_ok.1 ht
        have mem_tr : ∀ {α β : Type} {f : α → Except Err β} {l : List α} {l' : List β} {x : α} {y : β},
            List.Forall₂ (fun a b => f a = .ok b) l l' → x ∈ l → f x = .ok y → y ∈ l' := by
          intro α β f l l' x y hF hx hy
          induction hF with
          | nil => simp at hx
          | cons h1 _ ih =>
            rcases List.mem_cons.1 hx with rfl | hx
            · rw [h1] at hy; cases hy; simp
            · exact List.mem_cons_of_mem _ (ih hx)
        refine ⟨?_, ?_, ?_, ?_⟩
        · intro heq
          rw [heq] at h1
          rw [h1] at h2
          exact p1 (Option.some.inj h2)
        · intro te hte hm
          rw [hte] at t1
          cases hte' : t.edges with
          | none => rw [hte'] at t1; cases t1
          | some te' =>
            rw [hte'] at t1
            cases t1 with
            | some t1 =>
              exact p2 te' hte' (mem_tr t1 hm (edgeIdx_ok.2 ⟨h1, h2⟩))
        · intro te hte hm
          rw [hte] at t2
          cases hte' : t.parents with
          | none => rw [hte'] at t2; cases t2
          | some te' =>
            rw [hte'] at t2
            cases t2 with
            | some t2 => exact p3 te' hte' (mem_tr t2 hm (get_ok.2 h1))
        · intro te hte hm
          rw [hte] at t3
          cases hte' : t.children with
          | none => rw [hte'] at t3; cases t3
          | some te' =>
            rw [hte'] at t3
            cases t3 with
            | some t3 => exact p4 te' hte' (mem_tr t3 hm (get_ok.2 h2))

/-- **C38** for `from_pandas`: no excluded edge is learned, in terms of names. -/
theorem fromPandas_permitted {P : Problem K} {minimize : Minimizer K} (hm : RespectsBounds minimize)
    {fuel : ℕ} {X : DataFrame C K} {a : Params K C} {g : Graph C K}
    (h : fromPandas P minimize fuel X a = .ok g) : ∀ e ∈ g.edges, Permitted a.tabu e.src e.dst :=
  fromPandasWith_permitted (fun _ _ _ hg => fromNumpy_permitted hm hg) h

/-- **C38** for `from_pandas_lasso`. -/
theorem fromPandasLasso_permitted {P : Problem K} {minimize : Minimizer K}
    (hm : RespectsBounds minimize) {fuel : ℕ} {X : DataFrame C K} {a : Params K C} {g : Graph C K}
    (h : fromPandasLasso P minimize fuel X a = .ok g) : ∀ e ∈ g.edges, Permitted a.tabu e.src e.dst :=
  fromPandasWith_permitted (fun _ _ _ hg => fromNumpyLasso_permitted hm hg) h

/-- **C43** for `from_pandas` and `from_pandas_lasso`. -/
theorem fromPandas_ok (P : Problem K) (minimize : Minimizer K) (fuel : ℕ) {X : DataFrame C K}
    (hnd : X.cols.Nodup) (a : Params K C) (hnum : ∀ b ∈ X.numeric, b = true)
    (ht : TabuKnown X.cols a.tabu) : ∃ t, TabuNamed X.cols a.tabu t ∧
      (∀ e, fromNumpy P minimize fuel X.values { a with tabu := t } = .error e →
        fromPandas P minimize fuel X a = .error e) ∧
      ∀ g, fromNumpy P minimize fuel X.values { a with tabu := t } = .ok g →
        ∃ g', fromPandas P minimize fuel X a = .ok g' ∧ g'.nodes = X.cols ∧
          List.Forall₂ (EdgeNamed X.cols) g.edges g'.edges :=
  (fromPandasWith_ok (fromNumpy_learner P minimize fuel) hnd a).2.2 hnum ht

theorem fromPandasLasso_ok (P : Problem K) (minimize : Minimizer K) (fuel : ℕ) {X : DataFrame C K}
    (hnd : X.cols.Nodup) (a : Params K C) (hnum : ∀ b ∈ X.numeric, b = true)
    (ht : TabuKnown X.cols a.tabu) : ∃ t, TabuNamed X.cols a.tabu t ∧
      (∀ e, fromNumpyLasso P minimize fuel X.values { a with tabu := t } = .error e →
        fromPandasLasso P minimize fuel X a = .error e) ∧
      ∀ g, fromNumpyLasso P minimize fuel X.values { a with tabu := t } = .ok g →
        ∃ g', fromPandasLasso P minimize fuel X a = .ok g' ∧ g'.nodes = X.cols ∧
          List.Forall₂ (EdgeNamed X.cols) g.edges g'.edges :=
  (fromPandasWith_ok (fromNumpyLasso_learner P minimize fuel) hnd a).2.2 hnum ht

end

end Verif.Notears
