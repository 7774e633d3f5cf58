import Verif.Dynotears.Props
import Verif.Transform.Props

/-!
# Learning of dynamic structures from data frames: C45, C46, C48; C47
-/

namespace Verif.Dynotears

open Verif.Notears Verif.Str

/-! ### Translating names -/

theorem get_ok {α : Type} {o : Option α} {a : α} : get o = .ok a ↔ o = some a := by
  cases o <;> simp [get]

theorem get_error {α : Type} {o : Option α} {e : Err} (h : get o = .error e) : e = .keyError := by
  cases o with
  | none => cases h; rfl
  | some => cases h

theorem mapM_ok {α β : Type} {f : α → Except Err β} {l : List α} {l' : List β} :
    l.mapM f = .ok l' ↔ List.Forall₂ (fun a b => f a = .ok b) l l' := by
  induction l generalizing l' with
  | nil =>
    cases l' <;> simp [pure, Except.pure]
  | cons a l ih =>
    rw [List.mapM_cons]
    cases hf : f a with
    | error e =>
      simp only [bind, Except.bind]
      constructor
      · intro h; cases h
      · intro h; cases h with | cons h1 _ => rw [hf] at h1; cases h1
    | ok b =>
      cases hm : l.mapM f with
      | error e =>
        simp only [bind, Except.bind]
        constructor
        · intro h; cases h
        · intro h; cases h with | cons _ h2 => rw [ih.2 h2] at hm; cases hm
      | ok bs =>
        simp only [bind, Except.bind, pure, Except.pure]
        constructor
        · intro h; cases h; exact .cons hf (ih.1 hm)
        · intro h
          cases h with
          | cons h1 h2 =>
            rw [hf] at h1
            cases h1
            rw [ih.2 h2] at hm
            cases hm
            rfl

theorem mapM_get_error {α β : Type} {f : α → Except Err β} (hf : ∀ a e, f a = .error e → e = .keyError)
    {l : List α} {e : Err} (h : l.mapM f = .error e) : e = .keyError := by
  induction l with
  | nil => simp [pure, Except.pure] at h
  | cons a l ih =>
    rw [List.mapM_cons] at h
    cases ha : f a with
    | error e' =>
      rw [ha] at h
      simp only [bind, Except.bind, Except.error.injEq] at h
      subst h
      exact hf _ _ ha
    | ok b =>
      rw [ha] at h
      cases hm : l.mapM f with
      | error e' =>
        rw [hm] at h
        simp only [bind, Except.bind, Except.error.injEq] at h
        subst h
        exact ih hm
      | ok bs => rw [hm] at h; simp [bind, Except.bind, pure, Except.pure] at h

theorem mapM_total {α β : Type} {f : α → Except Err β} {l : List α} (h : ∀ a ∈ l, ∃ b, f a = .ok b) :
    ∃ l', l.mapM f = .ok l' := by
  have : ∃ l', List.Forall₂ (fun a b => f a = .ok b) l l' := by
    induction l with
    | nil => exact ⟨[], .nil⟩
    | cons a l ih =>
      obtain ⟨b, hb⟩ := h a (by simp)
      obtain ⟨l', hl'⟩ := ih fun x hx => h x (by simp [hx])
      exact ⟨b :: l', .cons hb hl'⟩
  obtain ⟨l', hl'⟩ := this
  exact ⟨l', mapM_ok.2 hl'⟩

/-- The name of an edge is looked up. -/
def edgeIdx (cols : List Str) (e : ℕ × Str × Str) : Except Err (ℕ × ℕ × ℕ) := do
  let u ← get (colIdx cols e.2.1)
  let v ← get (colIdx cols e.2.2)
  pure (e.1, u, v)

theorem edgeIdx_ok {cols : List Str} {e : ℕ × Str × Str} {e' : ℕ × ℕ × ℕ} : edgeIdx cols e = .ok e' ↔
    e'.1 = e.1 ∧ colIdx cols e.2.1 = some e'.2.1 ∧ colIdx cols e.2.2 = some e'.2.2 := by
  obtain ⟨e1, e2, e3⟩ := e'
  unfold edgeIdx
  cases h1 : colIdx cols e.2.1 <;> cases h2 : colIdx cols e.2.2 <;>
    simp [get, bind, Except.bind, pure, Except.pure, eq_comm]

theorem edgeIdx_error {cols : List Str} {e : ℕ × Str × Str} {err : Err} (h : edgeIdx cols e = .error err) :
    err = .keyError := by
  unfold edgeIdx at h
  cases h1 : colIdx cols e.2.1 <;> cases h2 : colIdx cols e.2.2 <;>
    simp [h1, h2, get, bind, Except.bind, pure, Except.pure] at h <;> exact h.symm

/-- An optional argument is translated. -/
def trOpt {α β : Type} (f : α → Except Err β) : Option (List α) → Except Err (Option (List β))
  | none => .ok none
  | some l => match l.mapM f with
    | .error e => .error e
    | .ok l' => .ok (some l')

theorem translate_eq (cols : List Str) (t : Tabu Str) : translate cols t =
    match trOpt (edgeIdx cols) t.edges with
    | .error e => .error e
    | .ok te => match trOpt (fun n => get (colIdx cols n)) t.parents with
      | .error e => .error e
      | .ok tp => match trOpt (fun n => get (colIdx cols n)) t.children with
        | .error e => .error e
        | .ok tc => .ok ⟨te, tp, tc⟩ := by
  obtain ⟨te, tp, tc⟩ := t
  have he : ∀ te : List (ℕ × Str × Str), (te.mapM fun e => do
        let u ← get (colIdx cols e.2.1)
        let v ← get (colIdx cols e.2.2)
        pure (e.1, u, v)) = te.mapM (edgeIdx cols) := fun _ => rfl
  simp only [translate, he]
  generalize (fun n => get (colIdx cols n)) = f
  generalize edgeIdx cols = f'
  cases te with
  | none =>
    cases tp with
    | none =>
      cases tc with
      | none => rfl
      | some tc => simp only [trOpt]; cases tc.mapM f <;> rfl
    | some tp =>
      cases tc with
      | none => simp only [trOpt]; cases tp.mapM f <;> rfl
      | some tc => simp only [trOpt]; cases tp.mapM f <;> cases tc.mapM f <;> rfl
  | some te =>
    cases tp with
    | none =>
      cases tc with
      | none => simp only [trOpt]; cases te.mapM f' <;> rfl
      | some tc => simp only [trOpt]; cases te.mapM f' <;> cases tc.mapM f <;> rfl
    | some tp =>
      cases tc with
      | none => simp only [trOpt]; cases te.mapM f' <;> cases tp.mapM f <;> rfl
      | some tc => simp only [trOpt]; cases te.mapM f' <;> cases tp.mapM f <;> cases tc.mapM f <;> rfl

theorem trOpt_ok {α β : Type} {f : α → Except Err β} {o : Option (List α)} {o' : Option (List β)} :
    trOpt f o = .ok o' ↔ Option.Rel (List.Forall₂ fun a b => f a = .ok b) o o' := by
  cases o with
  | none =>
    constructor
    · intro h; cases h; exact .none
    · intro h; cases h; rfl
  | some l =>
    rw [trOpt]
    cases h : l.mapM f with
    | error e =>
      constructor
      · intro h; cases h
      · intro h'
        cases h' with
        | some h' => rw [mapM_ok.2 h'] at h; cases h
    | ok l' =>
      constructor
      · intro h'; cases h'; exact .some (mapM_ok.1 h)
      · intro h'
        cases h' with
        | some h' => rw [mapM_ok.2 h'] at h; cases h; rfl

theorem translate_ok {cols : List Str} {t : Tabu Str} {t' : Tabu ℕ} : translate cols t = .ok t' ↔
    Option.Rel (List.Forall₂ fun e e' => edgeIdx cols e = .ok e') t.edges t'.edges ∧
    Option.Rel (List.Forall₂ fun n i => get (colIdx cols n) = .ok i) t.parents t'.parents ∧
    Option.Rel (List.Forall₂ fun n i => get (colIdx cols n) = .ok i) t.children t'.children := by
  rw [← trOpt_ok, ← trOpt_ok, ← trOpt_ok, translate_eq]
  obtain ⟨te, tp, tc⟩ := t'
  cases trOpt (edgeIdx cols) t.edges <;> cases trOpt (fun n => get (colIdx cols n)) t.parents <;>
    cases trOpt (fun n => get (colIdx cols n)) t.children <;> simp

theorem translate_named {cols : List Str} {t : Tabu Str} {t' : Tabu ℕ} (h : translate cols t = .ok t') :
    TabuNamed cols t t' := by
  obtain ⟨h1, h2, h3⟩ := translate_ok.1 h
  refine ⟨rel_imp ?_ h1, rel_imp ?_ h2, rel_imp ?_ h3⟩
  · intro e e' he
    obtain ⟨k0, k1, k2⟩ := edgeIdx_ok.1 he
    exact ⟨k0, colIdx_some k1, colIdx_some k2⟩
  · intro n i hn
    exact colIdx_some (get_ok.1 hn)
  · intro n i hn
    exact colIdx_some (get_ok.1 hn)

theorem trOpt_total {α β : Type} {f : α → Except Err β}
    (hf : ∀ a e, f a = .error e → e = .keyError) (o : Option (List α)) :
    ((∀ l, o = some l → ∀ a ∈ l, ∃ b, f a = .ok b) → ∃ o', trOpt f o = .ok o') ∧
    (¬ (∀ l, o = some l → ∀ a ∈ l, ∃ b, f a = .ok b) → trOpt f o = .error .keyError) := by
  cases o with
  | none => exact ⟨fun _ => ⟨none, rfl⟩, fun h => absurd (fun l hl => by cases hl) h⟩
  | some l =>
    rw [trOpt]
    cases h : l.mapM f with
    | error e =>
      have := mapM_get_error hf h
      subst this
      refine ⟨fun hall => ?_, fun _ => rfl⟩
      exfalso
      obtain ⟨l', hl'⟩ := mapM_total (hall l rfl)
      rw [hl'] at h
      cases h
    | ok l' =>
      refine ⟨fun _ => ⟨_, rfl⟩, fun hn => ?_⟩
      exfalso
      apply hn
      rintro _ ⟨⟩ a ha
      have h2 := mapM_ok.1 h
      clear h hn
      induction h2 with
      | nil => simp at ha
      | cons h1 _ ih =>
        rcases List.mem_cons.1 ha with rfl | ha
        · exact ⟨_, h1⟩
        · exact ih ha

theorem colIdx_isSome_iff {cols : List Str} {n : Str} : (∃ i, get (colIdx cols n) = .ok i) ↔ n ∈ cols := by
  constructor
  · rintro ⟨i, h⟩
    exact List.mem_of_getElem? (colIdx_some (get_ok.1 h))
  · intro h
    obtain ⟨i, hi⟩ := colIdx_mem h
    exact ⟨i, get_ok.2 hi⟩

theorem edgeIdx_isSome_iff {cols : List Str} {e : ℕ × Str × Str} :
    (∃ i, edgeIdx cols e = .ok i) ↔ e.2.1 ∈ cols ∧ e.2.2 ∈ cols := by
  constructor
  · rintro ⟨i, h⟩
    obtain ⟨-, h1, h2⟩ := edgeIdx_ok.1 h
    exact ⟨List.mem_of_getElem? (colIdx_some h1), List.mem_of_getElem? (colIdx_some h2)⟩
  · rintro ⟨h1, h2⟩
    obtain ⟨i, hi⟩ := colIdx_mem h1
    obtain ⟨j, hj⟩ := colIdx_mem h2
    exact ⟨(e.1, i, j), edgeIdx_ok.2 ⟨rfl, hi, hj⟩⟩

/-- The names are translated if they are all columns; otherwise `KeyError`. -/
theorem translate_total (cols : List Str) (t : Tabu Str) :
    (TabuKnown cols t → ∃ t', translate cols t = .ok t') ∧
    (¬ TabuKnown cols t → translate cols t = .error .keyError) := by
  have h1 := trOpt_total (f := edgeIdx cols) (fun _ _ h => edgeIdx_error h) t.edges
  have h2 := trOpt_total (f := fun n => get (colIdx cols n)) (fun _ _ h => get_error h) t.parents
  have h3 := trOpt_total (f := fun n => get (colIdx cols n)) (fun _ _ h => get_error h) t.children
  simp only [colIdx_isSome_iff, edgeIdx_isSome_iff] at h1 h2 h3
  rw [translate_eq]
  constructor
  · rintro ⟨k1, k2, k3⟩
    obtain ⟨te, e1⟩ := h1.1 k1
    obtain ⟨tp, e2⟩ := h2.1 k2
    obtain ⟨tc, e3⟩ := h3.1 k3
    rw [e1, e2, e3]
    exact ⟨_, rfl⟩
  · intro hn
    by_cases k1 : ∀ l, t.edges = some l → ∀ a ∈ l, a.2.1 ∈ cols ∧ a.2.2 ∈ cols
    · obtain ⟨te, e1⟩ := h1.1 k1
      rw [e1]
      by_cases k2 : ∀ l, t.parents = some l → ∀ a ∈ l, a ∈ cols
      · obtain ⟨tp, e2⟩ := h2.1 k2
        rw [e2]
        by_cases k3 : ∀ l, t.children = some l → ∀ a ∈ l, a ∈ cols
        · exact absurd ⟨k1, k2, k3⟩ hn
        · rw [h3.2 k3]
      · rw [h2.2 k2]
    · rw [h1.2 k1]

theorem forall₂_left {α β : Type} {R : α → β → Prop} {l : List α} {l' : List β} (h : List.Forall₂ R l l')
    {a : α} (ha : a ∈ l) : ∃ b ∈ l', R a b := by
  induction h with
  | nil => simp at ha
  | @cons x y l l' h1 _ ih =>
    rcases List.mem_cons.1 ha with rfl | ha
    · exact ⟨y, by simp, h1⟩
    · obtain ⟨b, hb, hab⟩ := ih ha
      exact ⟨b, by simp [hb], hab⟩

theorem forall₂_right {α β : Type} {R : α → β → Prop} {l : List α} {l' : List β} (h : List.Forall₂ R l l')
    {b : β} (hb : b ∈ l') : ∃ a ∈ l, R a b := by
  induction h with
  | nil => simp at hb
  | @cons x y l l' h1 _ ih =>
    rcases List.mem_cons.1 hb with rfl | hb
    · exact ⟨x, by simp, h1⟩
    · obtain ⟨a, ha, hab⟩ := ih hb
      exact ⟨a, by simp [ha], hab⟩

/-- An edge permitted between positions is permitted between the names. -/
theorem permitted_names {cols : List Str} {t : Tabu Str} {t' : Tabu ℕ} (h : translate cols t = .ok t')
    {k i j : ℕ} {u v : Str} (hu : colIdx cols u = some i) (hv : colIdx cols v = some j)
    (hp : Permitted t' k i j) : Permitted t k u v := by
  obtain ⟨h1, h2, h3⟩ := translate_ok.1 h
  obtain ⟨p0, p1, p2, p3⟩ := hp
  refine ⟨?_, ?_, ?_, ?_⟩
  · rintro hk rfl
    rw [hu] at hv
    exact p0 hk (Option.some.inj hv)
  · intro te hte hm
    rw [hte] at h1
    cases hte' : t'.edges with
    | none => rw [hte'] at h1; cases h1
    | some te' =>
      rw [hte'] at h1
      cases h1 with
      | some h1 =>
        obtain ⟨⟨k', i', j'⟩, hb, hab⟩ := forall₂_left h1 hm
        obtain ⟨q0, q1, q2⟩ := edgeIdx_ok.1 hab
        simp only at q0 q1 q2
        rw [hu] at q1
        rw [hv] at q2
        cases q1
        cases q2
        subst q0
        exact p1 te' hte' hb
  · intro te hte hm
    rw [hte] at h2
    cases hte' : t'.parents with
    | none => rw [hte'] at h2; cases h2
    | some te' =>
      rw [hte'] at h2
      cases h2 with
      | some h2 =>
        obtain ⟨i', hb, hab⟩ := forall₂_left h2 hm
        have := get_ok.1 hab
        rw [hu] at this
        cases this
        exact p2 te' hte' hb
  · intro te hte hm
    rw [hte] at h3
    cases hte' : t'.children with
    | none => rw [hte'] at h3; cases h3
    | some te' =>
      rw [hte'] at h3
      cases h3 with
      | some h3 =>
        obtain ⟨i', hb, hab⟩ := forall₂_left h3 hm
        have := get_ok.1 hab
        rw [hv] at this
        cases this
        exact p3 te' hte' hb

/-! ### Renaming the graph -/

section
variable {K : Type} [Field K] [LinearOrder K]

/-- The name of a learned edge. -/
def edgeName (cols : List Str) (e : Edge Str K) : Except Err (Str × Str × K) := do
  let u ← formatName cols e.src
  let v ← formatName cols e.dst
  pure (u, v, e.weight)

/-- The nodes of the graph with names. -/
def allNodes (cols : List Str) (p : ℕ) : List Str :=
  cols.flatMap fun var => (List.range (p + 1)).map fun l => lagName var l

theorem mem_allNodes {cols : List Str} {p : ℕ} {n : Str} :
    n ∈ allNodes cols p ↔ ∃ v ∈ cols, ∃ k ≤ p, n = lagName v k := by
  simp only [allNodes, List.mem_flatMap, List.mem_map, List.mem_range, Nat.lt_succ_iff, eq_comm (b := n)]

theorem allNodes_nodup {cols : List Str} (hnd : cols.Nodup) (p : ℕ) : (allNodes cols p).Nodup := by
  rw [allNodes, List.nodup_flatMap]
  constructor
  · intro v _
    exact List.nodup_range.map fun a b h => (lagName_inj h).2
  · refine hnd.imp ?_
    intro a b hab
    simp only [Function.onFun, List.disjoint_left, List.mem_map]
    rintro _ ⟨x, -, rfl⟩ ⟨y, -, h⟩
    exact hab (lagName_inj h).1.symm

omit [Field K] [LinearOrder K] in
/-- The renaming step of `from_pandas_dynamic`, unfolded. -/
theorem fromArrays_eq [Field K] [LinearOrder K] (P : Data K → Data K → Problem K) (minimize : Minimizer K)
    (fuel : ℕ) (cols : List Str) (p : ℕ) (X Xlags : Data K) (a : Params K Str) :
    fromArrays P minimize fuel cols p X Xlags a = match translate cols a.tabu with
      | .error e => .error e
      | .ok tabu =>
        match fromNumpyDynamic (P X Xlags) minimize fuel X Xlags { a with tabu := tabu } with
        | .error e => .error e
        | .ok g => match g.edges.mapM (edgeName cols) with
          | .error e => .error e
          | .ok es => .ok (addWeightedEdges "learned" (addNodes ⟨[], []⟩ (allNodes cols p)) es) := by
  unfold fromArrays
  cases translate cols a.tabu with
  | error e => rfl
  | ok tabu =>
    simp only
    cases fromNumpyDynamic (P X Xlags) minimize fuel X Xlags { a with tabu := tabu } with
    | error e => rfl
    | ok g =>
      simp only
      change (g.edges.mapM (edgeName cols) >>= fun es =>
        pure (addWeightedEdges "learned" (addNodes ⟨[], []⟩ (allNodes cols p)) es)) = _
      cases g.edges.mapM (edgeName cols) <;> rfl

omit [Field K] [LinearOrder K] in
theorem edgeName_lag {cols : List Str} {i j k : ℕ} {x : K} {o : String} {y : Str × Str × K} :
    edgeName cols ⟨lagName (natStr i) k, lagName (natStr j) 0, x, o⟩ = .ok y ↔
      ∃ u v, idxCol cols i = some u ∧ idxCol cols j = some v ∧ y = (lagName u k, lagName v 0, x) := by
  unfold edgeName
  simp only [formatName_lagName]
  cases h1 : idxCol cols i <;> cases h2 : idxCol cols j <;>
    simp [bind, Except.bind, pure, Except.pure, eq_comm]

/-- **C45** for `from_pandas_dynamic`: no excluded edge is learned. -/
theorem fromArrays_permitted {P : Data K → Data K → Problem K} {minimize : Minimizer K}
    (hm : RespectsBounds minimize) {fuel : ℕ} {cols : List Str} {p : ℕ} {X Xlags : Data K}
    {a : Params K Str} {g : Graph Str K} (h : fromArrays P minimize fuel cols p X Xlags a = .ok g) :
    ∀ e ∈ g.edges, ∃ k u v, u ∈ cols ∧ v ∈ cols ∧ e.src = lagName u k ∧ e.dst = lagName v 0 ∧
      Permitted a.tabu k u v := by
  rw [fromArrays_eq] at h
  cases ht : translate cols a.tabu with
  | error e => rw [ht] at h; cases h
  | ok tabu =>
    rw [ht] at h
    simp only at h
    cases hg : fromNumpyDynamic (P X Xlags) minimize fuel X Xlags { a with tabu := tabu } with
    | error e => rw [hg] at h; cases h
    | ok g0 =>
      rw [hg] at h
      simp only at h
      cases hes : g0.edges.mapM (edgeName cols) with
      | error e => rw [hes] at h; cases h
      | ok es =>
        rw [hes] at h
        simp only [Except.ok.injEq] at h
        subst h
        intro e he
        rcases mem_addWeightedEdges he with he | he
        · rw [addNodes_edges] at he; simp at he
        · obtain ⟨e0, he0, hab⟩ := forall₂_right (mapM_ok.1 hes) he
          obtain ⟨k, i, j, -, -, -, h1, h2, hp⟩ := fromNumpyDynamic_permitted hm hg e0 he0
          obtain ⟨src, dst, w, o⟩ := e0
          simp only at h1 h2
          subst h1 h2
          obtain ⟨u, v, hu, hv, hy⟩ := edgeName_lag.1 hab
          have hu := idxCol_some hu
          have hv := idxCol_some hv
          refine ⟨k, u, v, List.mem_of_getElem? hu.1, List.mem_of_getElem? hv.1, (Prod.mk.inj hy).1,
            (Prod.mk.inj (Prod.mk.inj hy).2).1, permitted_names ht hu.2 hv.2 hp⟩

/-- **C46** for `from_pandas_dynamic`, for distinct column names: it succeeds exactly if all tabu names are
columns and `from_numpy_dynamic` succeeds for the arrays; the result is the dynamic graph of the same
weights with the names of the columns. -/
theorem fromArrays_correct (P : Data K → Data K → Problem K) (minimize : Minimizer K) (fuel : ℕ)
    {cols : List Str} (hnd : cols.Nodup) {p : ℕ} {X Xlags : Data K} (hX : X.cols = cols.length)
    (hXl : Xlags.cols = p * cols.length) (a : Params K Str) :
    (¬ TabuKnown cols a.tabu → fromArrays P minimize fuel cols p X Xlags a = .error .keyError) ∧
    (TabuKnown cols a.tabu → ∃ t, TabuNamed cols a.tabu t ∧
      (∀ e, fromNumpyDynamic (P X Xlags) minimize fuel X Xlags { a with tabu := t } = .error e →
        fromArrays P minimize fuel cols p X Xlags a = .error e) ∧
      ∀ g, fromNumpyDynamic (P X Xlags) minimize fuel X Xlags { a with tabu := t } = .ok g →
        ∃ g' w, IsDynGraph ((List.range cols.length).map natStr) p w a.wThreshold "unknown" g ∧
          fromArrays P minimize fuel cols p X Xlags a = .ok g' ∧
          IsDynGraph cols p w a.wThreshold "learned" g') := by
  constructor
  · intro hk
    rw [fromArrays_eq, (translate_total cols a.tabu).2 hk]
  · intro hk
    obtain ⟨t, ht⟩ := (translate_total cols a.tabu).1 hk
    refine ⟨t, translate_named ht, ?_, ?_⟩
    · intro e he
      rw [fromArrays_eq, ht]
      simp only [he]
    · intro g hg
      obtain ⟨vec, -, hdyn⟩ := fromNumpyDynamic_graph hg
      have hd : X.cols ≠ 0 := (fromNumpyDynamic_ok.1 hg).1.2.1
      have hp : Xlags.cols / X.cols = p := by rw [hXl, hX, Nat.mul_div_cancel _ (by omega)]
      rw [hp, hX] at hdyn
      have hname : ∀ e ∈ g.edges, ∃ y, edgeName cols e = .ok y := by
        intro e he
        obtain ⟨k, i, j, u, v, -, hu, hv, -, -, rfl⟩ := (hdyn.edges e).1 he
        obtain ⟨hi, rfl⟩ := range_map_get.1 hu
        obtain ⟨hj, rfl⟩ := range_map_get.1 hv
        refine ⟨_, edgeName_lag.2 ⟨cols[i], cols[j], ?_, ?_, rfl⟩⟩
        · rw [idxCol_nodup hnd]; simp [hi]
        · rw [idxCol_nodup hnd]; simp [hj]
      obtain ⟨es, hes⟩ := mapM_total hname
      have hF := mapM_ok.1 hes
      have hmem : ∀ y, y ∈ es ↔ ∃ k i j u v, k ≤ p ∧ cols[i]? = some u ∧ cols[j]? = some v ∧
          weightOf cols.length vec k i j ≠ 0 ∧ a.wThreshold ≤ |weightOf cols.length vec k i j| ∧
          y = (lagName u k, lagName v 0, weightOf cols.length vec k i j) := by
        intro y
        constructor
        · intro hy
          obtain ⟨e, he, hab⟩ := forall₂_right hF hy
          obtain ⟨k, i, j, u, v, hk, hu, hv, h1, h2, rfl⟩ := (hdyn.edges e).1 he
          obtain ⟨hi, rfl⟩ := range_map_get.1 hu
          obtain ⟨hj, rfl⟩ := range_map_get.1 hv
          obtain ⟨u, v, hu, hv, rfl⟩ := edgeName_lag.1 hab
          rw [idxCol_nodup hnd] at hu hv
          exact ⟨k, i, j, u, v, hk, hu, hv, h1, h2, rfl⟩
        · rintro ⟨k, i, j, u, v, hk, hu, hv, h1, h2, rfl⟩
          have hi := (List.getElem?_eq_some_iff.1 hu).1
          have hj := (List.getElem?_eq_some_iff.1 hv).1
          obtain ⟨y, hy, hab⟩ := forall₂_left hF ((hdyn.edges _).2 ⟨k, i, j, _, _, hk,
            range_map_get.2 ⟨hi, rfl⟩, range_map_get.2 ⟨hj, rfl⟩, h1, h2, rfl⟩)
          obtain ⟨u', v', hu', hv', rfl⟩ := edgeName_lag.1 hab
          rw [idxCol_nodup hnd] at hu' hv'
          rw [hu] at hu'
          rw [hv] at hv'
          cases hu'
          cases hv'
          exact hy
      have hnodes : (addNodes (⟨[], []⟩ : Graph Str K) (allNodes cols p)) = ⟨allNodes cols p, []⟩ := by
        have h1 := addNodes_nodup (K := K) ⟨[], []⟩ (allNodes_nodup hnd p) (by simp)
        have h2 := addNodes_edges (K := K) ⟨[], []⟩ (allNodes cols p)
        cases h : addNodes (⟨[], []⟩ : Graph Str K) (allNodes cols p)
        rw [h] at h1 h2
        simp only [List.nil_append] at h1 h2
        rw [h1, h2]
      have hpairs : (es.map fun y => (y.1, y.2.1)).Nodup := by
        have hlt := fun e he => (hdyn.edges e).1 he
        have hpn := hdyn.edges_nodup
        clear hmem hname hes hdyn hg
        generalize g.edges = l at hF hlt hpn
        induction hF with
        | nil => simp
        | @cons e y l l' h hl ih =>
          rw [List.map_cons, List.nodup_cons] at hpn ⊢
          refine ⟨?_, ih (fun e he => hlt e (by simp [he])) hpn.2⟩
          intro hm
          apply hpn.1
          obtain ⟨y', hy', hyy⟩ := List.mem_map.1 hm
          obtain ⟨e', he', hab⟩ := forall₂_right hl hy'
          rw [List.mem_map]
          refine ⟨e', he', ?_⟩
          obtain ⟨k, i, j, u, v, -, hu, hv, -, -, rfl⟩ := hlt e (by simp)
          obtain ⟨k', i', j', u', v', -, hu', hv', -, -, rfl⟩ := hlt e' (by simp [he'])
          obtain ⟨hi, rfl⟩ := range_map_get.1 hu
          obtain ⟨hj, rfl⟩ := range_map_get.1 hv
          obtain ⟨hi', rfl⟩ := range_map_get.1 hu'
          obtain ⟨hj', rfl⟩ := range_map_get.1 hv'
          obtain ⟨u, v, hu, hv, rfl⟩ := edgeName_lag.1 h
          obtain ⟨u', v', hu', hv', rfl⟩ := edgeName_lag.1 hab
          simp only [Prod.mk.injEq] at hyy
          obtain ⟨e1, e2⟩ := lagName_inj hyy.1
          obtain ⟨e3, -⟩ := lagName_inj hyy.2
          subst e1 e2 e3
          have q1 := (idxCol_some hu).2
          rw [(idxCol_some hu').2] at q1
          cases q1
          have q2 := (idxCol_some hv).2
          rw [(idxCol_some hv').2] at q2
          cases q2
          rfl
      have hadd := addWeightedEdges_nodup (o := "learned") (⟨allNodes cols p, []⟩ : Graph Str K) (es := es) (by
        intro y hy
        obtain ⟨k, i, j, u, v, hk, hu, hv, -, -, rfl⟩ := (hmem y).1 hy
        exact ⟨mem_allNodes.2 ⟨u, List.mem_of_getElem? hu, k, hk, rfl⟩,
          mem_allNodes.2 ⟨v, List.mem_of_getElem? hv, 0, by omega, rfl⟩⟩) hpairs (by simp)
      refine ⟨addWeightedEdges "learned" (addNodes ⟨[], []⟩ (allNodes cols p)) es, weightOf cols.length vec,
        hdyn, by rw [fromArrays_eq, ht]; simp only [hg, hes], ?_⟩
      rw [hnodes, hadd]
      refine ⟨fun n => mem_allNodes, allNodes_nodup hnd p, ?_, ?_⟩
      · intro e
        simp only [List.nil_append, List.mem_map]
        constructor
        · rintro ⟨y, hy, rfl⟩
          obtain ⟨k, i, j, u, v, hk, hu, hv, h1, h2, rfl⟩ := (hmem y).1 hy
          exact ⟨k, i, j, u, v, hk, hu, hv, h1, h2, rfl⟩
        · rintro ⟨k, i, j, u, v, hk, hu, hv, h1, h2, rfl⟩
          exact ⟨_, (hmem _).2 ⟨k, i, j, u, v, hk, hu, hv, h1, h2, rfl⟩, rfl⟩
      · simp only [List.nil_append, List.map_map]
        exact hpairs

/-! ### From time series -/

/-- The data of `from_pandas_dynamic` are the observations with complete past: for every accepted list of
data frames the weights are learned from the rows `(x(t), x(t-1), …, x(t-p))`; otherwise it raises. -/
theorem fromPandasDynamic_data {T : Type} [DecidableEq T] (P : Data K → Data K → Problem K)
    (minimize : Minimizer K) (fuel : ℕ) (numeric : T → Bool) {ts : List (Transform.Entry Str T K)} {p : ℕ}
    (hp : p ≠ 0) (a : Params K Str) (hwf : ∀ t ∈ Transform.framesOf ts, t.WF) :
    (¬ Transform.Good numeric none ts →
      fromPandasDynamic P minimize fuel numeric ts p a = .error .valueError ∨
      fromPandasDynamic P minimize fuel numeric ts p a = .error .typeError) ∧
    ∀ df rest, ts = .frame df :: rest → Transform.Good numeric none ts →
      (∀ t ∈ Transform.framesOf ts, t.index.Pairwise (· < ·)) →
      ∃ X Xlags : List (List K), X.length = Xlags.length ∧
        X.zip Xlags = (Transform.framesOf ts).flatMap (fun t => Transform.lagged p (t.obs df.cols)) ∧
        fromPandasDynamic P minimize fuel numeric ts p a =
          fromArrays P minimize fuel df.cols p (toData df.cols.length X) (toData (p * df.cols.length) Xlags) a := by
  have hfit := Transform.fit_ok_iff numeric ({ p := p } : Transform.Trans Str) ts false
  constructor
  · intro hng
    unfold fromPandasDynamic
    simp only
    cases hf : (Transform.fit numeric ({ p := p } : Transform.Trans Str) ts false).2 with
    | ok u => exact absurd (hfit.1.1 hf) hng
    | error e =>
      simp only
      have : e = .valueError ∨ e = .typeError := by
        unfold Transform.fit at hf
        cases hc : Transform.checkInput numeric none ts with
        | error e' =>
          rw [hc] at hf
          simp only [Except.error.injEq] at hf
          subst hf
          exact Transform.checkInput_error hc
        | ok u => exact absurd ((Transform.checkInput_ok _ _ _).1 hc) hng
      rcases this with rfl | rfl
      · left; rfl
      · right; rfl
  · intro df rest hts hg hstrict
    have hf := hfit.1.2 hg
    have hs := hfit.2.1 df rest hts hf
    have hg' : Transform.Good numeric (some df.cols) ts := by
      obtain ⟨df', rest', hts', hall⟩ := hg
      refine ⟨df', rest', hts', fun e he => ?_⟩
      obtain ⟨t, h1, h2, h3, h4, h5, h6, -⟩ := hall e he
      refine ⟨t, h1, h2, h3, h4, h5, h6, ?_⟩
      rintro cs hcs c hc
      cases hcs
      rw [hts'] at hts
      cases hts
      rw [h3]
      exact hc
    obtain ⟨X, Xlags, h1, h2, h3, -⟩ := Transform.transform_time numeric
      (⟨p, some df.cols, some false⟩ : Transform.Trans Str) (columns := df.cols) rfl hp ts hwf hg' hstrict
    refine ⟨X, Xlags, h1, h2, ?_⟩
    unfold fromPandasDynamic
    simp only
    rw [hf, hs]
    simp only [h3 (by simp)]
    subst hts
    rfl

/-- Without a lag it raises. -/
theorem fromPandasDynamic_zero {T : Type} [DecidableEq T] (P : Data K → Data K → Problem K)
    (minimize : Minimizer K) (fuel : ℕ) (numeric : T → Bool) (ts : List (Transform.Entry Str T K))
    (a : Params K Str) : ∃ e, fromPandasDynamic P minimize fuel numeric ts 0 a = .error e := by
  unfold fromPandasDynamic
  simp only
  cases hf : (Transform.fit numeric ({ p := 0 } : Transform.Trans Str) ts false).2 with
  | error e => exact ⟨_, rfl⟩
  | ok u =>
    simp only
    obtain ⟨e, he⟩ := Transform.transform_zero numeric
      (Transform.fit numeric ({ p := 0 } : Transform.Trans Str) ts false).1 (by
        unfold Transform.fit
        split
        · rfl
        · split <;> rfl) ts
    rw [he]
    exact ⟨_, rfl⟩

/-! ### Acyclicity (C47) -/

omit [Field K] [LinearOrder K] in
/-- **C47**: a dynamic graph has a cycle exactly if it has one among the edges between nodes of lag 0. -/
theorem dyn_acyclic_iff [Field K] [LinearOrder K] {names : List Str} {p : ℕ} {w : ℕ → ℕ → ℕ → K} {thr : K}
    {origin : String} {g : Graph Str K} (h : IsDynGraph names p w thr origin g) :
    (∀ n, ¬ Relation.TransGen (fun u v => ∃ e ∈ g.edges, e.src = u ∧ e.dst = v) n n) ↔
      ∀ n, ¬ Relation.TransGen (fun u v => (∃ x y, u = lagName x 0 ∧ v = lagName y 0) ∧
        ∃ e ∈ g.edges, e.src = u ∧ e.dst = v) n n := by
  constructor
  · intro ha n hn
    refine ha n (Relation.TransGen.mono ?_ n n hn)
    exact fun u v huv => huv.2
  · intro ha n hn
    have hend : ∀ {u v : Str}, (∃ e ∈ g.edges, e.src = u ∧ e.dst = v) → ∃ y, v = lagName y 0 := by
      rintro u v ⟨e, he, rfl, rfl⟩
      obtain ⟨k, i, j, u, v, -, -, -, -, -, rfl⟩ := (h.edges e).1 he
      exact ⟨v, rfl⟩
    have key : ∀ {u v : Str}, Relation.TransGen (fun u v => ∃ e ∈ g.edges, e.src = u ∧ e.dst = v) u v →
        (∃ x, u = lagName x 0) → Relation.TransGen (fun u v => (∃ x y, u = lagName x 0 ∧ v = lagName y 0) ∧
          ∃ e ∈ g.edges, e.src = u ∧ e.dst = v) u v := by
      intro u v huv hu
      induction huv with
      | single h1 =>
        obtain ⟨x, hx⟩ := hu
        obtain ⟨y, hy⟩ := hend h1
        exact .single ⟨⟨x, y, hx, hy⟩, h1⟩
      | @tail b c h1 h2 ih =>
        obtain ⟨y, hy⟩ := hend h2
        have hb : ∃ x, b = lagName x 0 := by
          cases h1 with
          | single h1 => exact hend h1
          | tail _ h1 => exact hend h1
        obtain ⟨x, hx⟩ := hb
        exact ih.tail ⟨⟨x, y, hx, hy⟩, h2⟩
    have hn0 : ∃ x, n = lagName x 0 := by
      cases hn with
      | single h1 => exact hend h1
      | tail _ h1 => exact hend h1
    exact ha n (key hn hn0)

/-- **C47** in terms of the weights, for distinct names: a dynamic graph is acyclic exactly if the strong
weights within a time slice are. -/
theorem dyn_acyclic_weights {names : List Str} (hnd : names.Nodup) {p : ℕ} {w : ℕ → ℕ → ℕ → K} {thr : K}
    {origin : String} {g : Graph Str K} (h : IsDynGraph names p w thr origin g) :
    (∀ n, ¬ Relation.TransGen (fun u v => ∃ e ∈ g.edges, e.src = u ∧ e.dst = v) n n) ↔
      ∀ i, ¬ Relation.TransGen (fun i j => i < names.length ∧ j < names.length ∧ w 0 i j ≠ 0 ∧
        thr ≤ |w 0 i j|) i i := by
  rw [dyn_acyclic_iff h]
  constructor
  · intro ha i hi
    have key : ∀ {i j : ℕ}, Relation.TransGen (fun i j => i < names.length ∧ j < names.length ∧ w 0 i j ≠ 0 ∧
        thr ≤ |w 0 i j|) i j → ∃ u v, names[i]? = some u ∧ names[j]? = some v ∧
        Relation.TransGen (fun u v => (∃ x y, u = lagName x 0 ∧ v = lagName y 0) ∧
          ∃ e ∈ g.edges, e.src = u ∧ e.dst = v) (lagName u 0) (lagName v 0) := by
      have one : ∀ {i j : ℕ}, (i < names.length ∧ j < names.length ∧ w 0 i j ≠ 0 ∧ thr ≤ |w 0 i j|) →
          ∃ u v, names[i]? = some u ∧ names[j]? = some v ∧ ((∃ x y, lagName u 0 = lagName x 0 ∧ lagName v 0 = lagName y 0) ∧
          ∃ e ∈ g.edges, e.src = lagName u 0 ∧ e.dst = lagName v 0) := by
        rintro i j ⟨h1, h2, h3, h4⟩
        refine ⟨names[i], names[j], by simp [h1], by simp [h2], ⟨_, _, rfl, rfl⟩, _, (h.edges _).2
          ⟨0, i, j, names[i], names[j], by omega, by simp [h1], by simp [h2], h3, h4, rfl⟩, rfl, rfl⟩
      intro i j hij
      induction hij with
      | single h1 =>
        obtain ⟨u, v, hu, hv, h2⟩ := one h1
        exact ⟨u, v, hu, hv, .single h2⟩
      | tail _ h1 ih =>
        obtain ⟨u, v, hu, hv, h2⟩ := ih
        obtain ⟨v', x, hv', hx, h3⟩ := one h1
        rw [hv] at hv'
        cases hv'
        exact ⟨u, x, hu, hx, h2.tail h3⟩
    obtain ⟨u, v, hu, hv, h2⟩ := key hi
    rw [hu] at hv
    cases hv
    exact ha _ h2
  · intro ha n hn
    have one : ∀ {x y : Str}, ((∃ x' y', x = lagName x' 0 ∧ y = lagName y' 0) ∧
          ∃ e ∈ g.edges, e.src = x ∧ e.dst = y) →
        ∃ i j u v, names[i]? = some u ∧ names[j]? = some v ∧ x = lagName u 0 ∧ y = lagName v 0 ∧
          (i < names.length ∧ j < names.length ∧ w 0 i j ≠ 0 ∧ thr ≤ |w 0 i j|) := by
      rintro x y ⟨⟨x', y', rfl, rfl⟩, e, he, h1, h2⟩
      obtain ⟨k, i, j, u, v, -, hu, hv, h3, h4, rfl⟩ := (h.edges e).1 he
      simp only at h1 h2
      obtain ⟨rfl, rfl⟩ := lagName_inj h1
      obtain ⟨rfl, -⟩ := lagName_inj h2
      exact ⟨i, j, u, v, hu, hv, rfl, rfl, (List.getElem?_eq_some_iff.1 hu).1,
        (List.getElem?_eq_some_iff.1 hv).1, h3, h4⟩
    have idx : ∀ {i j : ℕ} {u v : Str}, names[i]? = some u → names[j]? = some v → lagName u 0 = lagName v 0 →
        i = j := by
      intro i j u v hu hv huv
      obtain ⟨rfl, -⟩ := lagName_inj huv
      obtain ⟨h1, h2⟩ := List.getElem?_eq_some_iff.1 hu
      obtain ⟨h3, h4⟩ := List.getElem?_eq_some_iff.1 hv
      exact (List.Nodup.getElem_inj_iff hnd).1 (h2.trans h4.symm)
    have key : ∀ {x y : Str}, Relation.TransGen (fun u v => (∃ x y, u = lagName x 0 ∧ v = lagName y 0) ∧
          ∃ e ∈ g.edges, e.src = u ∧ e.dst = v) x y → ∃ i j u v, names[i]? = some u ∧ names[j]? = some v ∧
        x = lagName u 0 ∧ y = lagName v 0 ∧ Relation.TransGen (fun i j => i < names.length ∧ j < names.length ∧
          w 0 i j ≠ 0 ∧ thr ≤ |w 0 i j|) i j := by
      intro x y hxy
      induction hxy with
      | single h1 =>
        obtain ⟨i, j, u, v, hu, hv, hx, hy, h2⟩ := one h1
        exact ⟨i, j, u, v, hu, hv, hx, hy, .single h2⟩
      | tail _ h1 ih =>
        obtain ⟨i, j, u, v, hu, hv, hx, hy, h2⟩ := ih
        obtain ⟨j', l, v', z, hv', hz, hy', hz', h3⟩ := one h1
        have := idx hv hv' (hy.symm.trans hy')
        subst this
        exact ⟨i, l, u, z, hu, hz, hx, hz', h2.tail h3⟩
    obtain ⟨i, j, u, v, hu, hv, hx, hy, h2⟩ := key hn
    have := idx hu hv (hx.symm.trans hy)
    subst this
    exact ha _ h2

end

end Verif.Dynotears
