import Verif.BBN.Model

/-!
# Potential tables represent functions of assignments

`Rep dom X tt f` says that the dict `tt` has exactly the keys of scope `X` and holds the value
`f x` under the key of every assignment `x`.
-/

namespace Verif.BBN

open Function

theorem mapM_ok_of {α β ε : Type} {f : α → Except ε β} {g : α → β} {l : List α}
    (h : ∀ a ∈ l, f a = .ok (g a)) : l.mapM f = .ok (l.map g) := by
  induction l with
  | nil => rfl
  | cons a l ih =>
    rw [List.mapM_cons, h a List.mem_cons_self, ih fun b hb => h b (List.mem_cons_of_mem _ hb)]
    rfl

section
variable {V S K : Type} [LinearOrder V]

/-- The truth-table key of an assignment for scope `X`. -/
def keyOf (X : List V) (x : V → S) : Key V S := X.map fun v => (v, x v)

/-- Read a key back into an assignment. -/
def ovr : Key V S → (V → S) → V → S
  | [], x => x
  | (v, s) :: k, x => ovr k (update x v s)

theorem sumOver_eq_perms [AddCommMonoid K] (dom : V → List S) (X : List V) (f : (V → S) → K)
    (x : V → S) : sumOver dom X f x = ((perms dom X).map fun k => f (ovr k x)).sum := by
  induction X generalizing x with
  | nil => simp [sumOver, perms, ovr]
  | cons v X ih =>
    simp only [sumOver, perms, ih]
    induction dom v with
    | nil => rfl
    | cons s ss ihs =>
      simp only [List.map_cons, List.sum_cons, List.flatMap_cons, List.map_append, List.sum_append,
        ihs, List.map_map]
      rfl

theorem mem_perms_iff (dom : V → List S) {X : List V} (k : Key V S) :
    k ∈ perms dom X ↔ k.map Prod.fst = X ∧ ∀ p ∈ k, p.2 ∈ dom p.1 := by
  induction X generalizing k with
  | nil => simp only [perms, List.mem_singleton, List.map_eq_nil_iff]; constructor
           · rintro rfl; simp
           · exact fun h => h.1
  | cons v X ih =>
    simp only [perms, List.mem_flatMap, List.mem_map]
    constructor
    · rintro ⟨s, hs, k', hk', rfl⟩
      have := (ih k').1 hk'
      refine ⟨by simp [this.1], ?_⟩
      intro p hp
      rcases List.mem_cons.1 hp with rfl | hp
      · exact hs
      · exact this.2 p hp
    · rintro ⟨h1, h2⟩
      cases k with
      | nil => simp at h1
      | cons p k =>
        simp only [List.map_cons, List.cons.injEq] at h1
        refine ⟨p.2, h1.1 ▸ h2 p List.mem_cons_self, k, (ih k).2 ⟨h1.2, fun q hq =>
          h2 q (List.mem_cons_of_mem _ hq)⟩, ?_⟩
        rw [← h1.1]

theorem keyOf_mem_perms (dom : V → List S) {X : List V} {x : V → S} (hx : ∀ v ∈ X, x v ∈ dom v) :
    keyOf X x ∈ perms dom X := by
  rw [mem_perms_iff]
  refine ⟨by simp [keyOf, Function.comp_def], ?_⟩
  intro p hp
  obtain ⟨v, hv, rfl⟩ := List.mem_map.1 hp
  exact hx v hv

theorem ovr_of_notMem (k : Key V S) (x : V → S) {v : V} (h : v ∉ k.map Prod.fst) :
    ovr k x v = x v := by
  induction k generalizing x with
  | nil => rfl
  | cons p k ih =>
    simp only [List.map_cons, List.mem_cons, not_or] at h
    rw [ovr, ih _ h.2, update_of_ne h.1]

theorem keyOf_ovr (k : Key V S) (x : V → S) (h : (k.map Prod.fst).Nodup) :
    keyOf (k.map Prod.fst) (ovr k x) = k := by
  induction k generalizing x with
  | nil => rfl
  | cons p k ih =>
    simp only [List.map_cons, List.nodup_cons] at h
    simp only [keyOf, List.map_cons, ovr]
    rw [ovr_of_notMem _ _ h.1]
    simp only [update_self]
    congr 1
    exact ih _ h.2

theorem ovr_valid {dom : V → List S} {x : V → S} (hx : Valid dom x) (k : Key V S)
    (hk : ∀ p ∈ k, p.2 ∈ dom p.1) : Valid dom (ovr k x) := by
  induction k generalizing x with
  | nil => exact hx
  | cons p k ih =>
    exact ih (hx.update dom (hk p List.mem_cons_self))
      fun q hq => hk q (List.mem_cons_of_mem _ hq)

/-- Every key of scope `X` is the key of a valid assignment. -/
theorem exists_of_mem_perms {dom : V → List S} {X : List V} (hX : X.Nodup) {x : V → S}
    (hx : Valid dom x) {k : Key V S} (hk : k ∈ perms dom X) :
    ∃ y, Valid dom y ∧ k = keyOf X y ∧ y = ovr k x := by
  obtain ⟨h1, h2⟩ := (mem_perms_iff dom k).1 hk
  refine ⟨ovr k x, ovr_valid hx k h2, ?_, rfl⟩
  have := keyOf_ovr k x (h1 ▸ hX)
  rw [h1] at this
  exact this.symm

theorem keyOf_eq_iff {X : List V} {x y : V → S} :
    keyOf X x = keyOf X y ↔ ∀ v ∈ X, x v = y v := by
  simp [keyOf, List.map_inj_left]

theorem perms_nodup {dom : V → List S} (hd : ∀ v, (dom v).Nodup) (X : List V) :
    (perms dom X).Nodup := by
  induction X with
  | nil => simp [perms]
  | cons v X ih =>
    rw [perms, List.nodup_flatMap]
    refine ⟨fun s _ => ih.map (fun a b h => by simpa using h), ?_⟩
    refine (hd v).imp ?_
    intro s t hst k hk hk'
    obtain ⟨a, _, rfl⟩ := List.mem_map.1 hk
    obtain ⟨b, _, hb⟩ := List.mem_map.1 hk'
    simp only [List.cons.injEq, Prod.mk.injEq, true_and] at hb
    exact hst hb.1.symm

theorem sumOver_congr_on [AddCommMonoid K] (dom : V → List S) (vs : List V)
    {f g : (V → S) → K} {x : V → S}
    (h : ∀ y, (∀ v, v ∉ vs → y v = x v) → (∀ v ∈ vs, y v ∈ dom v) → f y = g y) :
    sumOver dom vs f x = sumOver dom vs g x := by
  induction vs generalizing x with
  | nil => exact h x (fun _ _ => rfl) (by simp)
  | cons v vs ih =>
    simp only [sumOver]
    refine congrArg List.sum (List.map_congr_left fun s hs => ih fun y hy hy' => h y ?_ ?_)
    · intro w hw
      simp only [List.mem_cons, not_or] at hw
      rw [hy w hw.2, update_of_ne hw.1]
    · intro w hw
      by_cases hwv : w ∈ vs
      · exact hy' w hwv
      · have hwv' : w = v := by simpa [hwv] using hw
        subst hwv'
        rw [hy w hwv]
        simpa using hs

theorem sum_ite_eq_of_nodup [AddCommMonoid K] [DecidableEq S] {l : List S} (hl : l.Nodup) {a : S}
    (ha : a ∈ l) (f : S → K) : (l.map fun s => if s = a then f s else 0).sum = f a := by
  induction l with
  | nil => simp at ha
  | cons b l ih =>
    rw [List.nodup_cons] at hl
    rw [List.map_cons, List.sum_cons]
    by_cases hb : b = a
    · subst hb
      have : (l.map fun s => if s = b then f s else 0) = l.map fun _ => (0 : K) := by
        refine List.map_congr_left fun s hs => if_neg ?_
        rintro rfl
        exact hl.1 hs
      rw [this, if_pos rfl]
      simp
    · have : a ∈ l := by
        rcases List.mem_cons.1 ha with h | h
        · exact absurd h.symm hb
        · exact h
      rw [if_neg hb, zero_add, ih hl.2 this]

theorem sumOver_zero [AddCommMonoid K] (dom : V → List S) (vs : List V) (x : V → S) :
    sumOver dom vs (fun _ => (0 : K)) x = 0 := by
  induction vs generalizing x with
  | nil => rfl
  | cons v vs ih => simp [sumOver, ih]

/-- Summing an indicator of one configuration of `R` picks out the value there. -/
theorem sumOver_indicator [AddCommMonoid K] [DecidableEq S] {dom : V → List S}
    (hd : ∀ v, (dom v).Nodup) {R : List V} (hR : R.Nodup) (g : (V → S) → K) {x z : V → S}
    (hz : Valid dom z) :
    sumOver dom R (fun y => if keyOf R y = keyOf R z then g y else 0) x = g (ovr (keyOf R z) x) := by
  induction R generalizing x with
  | nil => simp [sumOver, keyOf, ovr]
  | cons r R ih =>
    rw [List.nodup_cons] at hR
    simp only [sumOver]
    have step : ∀ s ∈ dom r,
        sumOver dom R (fun y => if keyOf (r :: R) y = keyOf (r :: R) z then g y else 0)
          (update x r s) =
        if s = z r then g (ovr (keyOf R z) (update x r s)) else 0 := by
      intro s _
      rw [sumOver_congr_on dom R (g := fun y => if s = z r then
        (if keyOf R y = keyOf R z then g y else 0) else 0)]
      · by_cases hs : s = z r
        · simp only [hs, if_true]
          exact ih hR.2
        · simp only [hs, if_false]
          exact sumOver_zero _ _ _
      · intro y hy _
        have hyr : y r = s := by rw [hy r hR.1]; simp
        simp only [keyOf_eq_iff, List.mem_cons, forall_eq_or_imp, hyr]
        by_cases hs : s = z r <;> simp [hs]
    rw [List.map_congr_left step, sum_ite_eq_of_nodup (hd r) (hz r)]
    rfl

theorem ovr_keyOf_self (R : List V) (x : V → S) : ovr (keyOf R x) x = x := by
  induction R with
  | nil => rfl
  | cons r R ih => simp only [keyOf, List.map_cons, ovr, update_eq_self]; exact ih

/-- Marginalising out `X \ R` as a sum over the keys of `X`. -/
theorem sum_perms_filter [AddCommMonoid K] [DecidableEq S] {dom : V → List S}
    (hd : ∀ v, (dom v).Nodup)
    {X R : List V} (hX : X.Nodup) (hR : R.Nodup) (hRX : ∀ r ∈ R, r ∈ X) (f : (V → S) → K)
    {x : V → S} (hx : Valid dom x) :
    ((perms dom X).map fun k => if keyOf R (ovr k x) = keyOf R x then f (ovr k x) else 0).sum =
      sumOver dom (X.filter (· ∉ R)) f x := by
  have h := sumOver_eq_perms dom X (fun y => if keyOf R y = keyOf R x then f y else 0) x
  rw [← h]
  have hp : X.Perm (R ++ X.filter (· ∉ R)) := by
    apply (List.perm_ext_iff_of_nodup hX ?_).2
    · intro a
      simp only [List.mem_append, List.mem_filter, decide_eq_true_eq]
      constructor
      · intro ha; by_cases har : a ∈ R
        · exact Or.inl har
        · exact Or.inr ⟨ha, har⟩
      · rintro (ha | ha)
        · exact hRX a ha
        · exact ha.1
    · apply hR.append (hX.filter _)
      intro a ha hb
      simp only [List.mem_filter, decide_eq_true_eq] at hb
      exact hb.2 ha
  rw [sumOver_perm dom hp, sumOver_append]
  have : ∀ y, sumOver dom (X.filter (· ∉ R)) (fun y => if keyOf R y = keyOf R x then f y else 0) y =
      if keyOf R y = keyOf R x then sumOver dom (X.filter (· ∉ R)) f y else 0 := by
    intro y
    rw [sumOver_congr_on dom _ (g := fun w => if keyOf R y = keyOf R x then f w else 0)]
    · split
      · rfl
      · exact sumOver_zero _ _ _
    · intro w hw _
      have : keyOf R w = keyOf R y := by
        rw [keyOf_eq_iff]
        intro v hv
        exact hw v (by simp [hv])
      simp only [this]
  rw [sumOver_congr dom this, sumOver_indicator hd hR _ hx, ovr_keyOf_self]

end

/-! ### Representation -/

section
variable {V S K : Type} [LinearOrder V] [DecidableEq S]

/-- The table `tt` of scope `X` holds `f`. -/
structure Rep (dom : V → List S) (X : List V) (tt : TT V S K) (f : (V → S) → K) : Prop where
  keys : (tt.map Prod.fst).Perm (perms dom X)
  val : ∀ x, Valid dom x → ∀ v, (keyOf X x, v) ∈ tt → v = f x

variable {dom : V → List S}

theorem Rep.congr {X : List V} {tt : TT V S K} {f g : (V → S) → K} (h : Rep dom X tt f)
    (hfg : ∀ x, Valid dom x → f x = g x) : Rep dom X tt g :=
  ⟨h.keys, fun x hx v hv => (h.val x hx v hv).trans (hfg x hx)⟩

theorem lookup_of_mem_nodup {α β : Type} [BEq α] [LawfulBEq α] {l : List (α × β)}
    (h : (l.map Prod.fst).Nodup) {a : α} {b : β} (hm : (a, b) ∈ l) : l.lookup a = some b := by
  induction l with
  | nil => simp at hm
  | cons p l ih =>
    rw [List.map_cons, List.nodup_cons] at h
    rcases List.mem_cons.1 hm with rfl | hm
    · simp
    · have hne : a ≠ p.1 := by
        rintro rfl
        exact h.1 (List.mem_map.2 ⟨_, hm, rfl⟩)
      rw [List.lookup_cons]
      have : (a == p.1) = false := by simpa using hne
      rw [this]
      exact ih h.2 hm

theorem Rep.nodup {X : List V} {tt : TT V S K} {f : (V → S) → K} (h : Rep dom X tt f)
    (hd : ∀ v, (dom v).Nodup) : (tt.map Prod.fst).Nodup :=
  h.keys.nodup_iff.2 (perms_nodup hd X)

theorem Rep.mem {X : List V} {tt : TT V S K} {f : (V → S) → K} (h : Rep dom X tt f) {x : V → S}
    (hx : Valid dom x) : (keyOf X x, f x) ∈ tt := by
  have : keyOf X x ∈ tt.map Prod.fst :=
    h.keys.mem_iff.2 (keyOf_mem_perms dom fun v _ => hx v)
  obtain ⟨⟨k, v⟩, hkv, hk⟩ := List.mem_map.1 this
  simp only at hk
  subst hk
  rw [← h.val x hx v hkv]
  exact hkv

theorem Rep.lookup {X : List V} {tt : TT V S K} {f : (V → S) → K} (h : Rep dom X tt f)
    (hd : ∀ v, (dom v).Nodup) {x : V → S} (hx : Valid dom x) :
    tt.lookup (keyOf X x) = some (f x) :=
  lookup_of_mem_nodup (h.nodup hd) (h.mem hx)

/-- All entries of a table are of the expected form. -/
theorem Rep.entry {X : List V} (hX : X.Nodup) {tt : TT V S K} {f : (V → S) → K}
    (h : Rep dom X tt f) {x₀ : V → S} (hx₀ : Valid dom x₀) {kv : Key V S × K} (hm : kv ∈ tt) :
    ∃ y, Valid dom y ∧ y = ovr kv.1 x₀ ∧ kv = (keyOf X y, f y) := by
  have : kv.1 ∈ perms dom X := h.keys.mem_iff.1 (List.mem_map.2 ⟨kv, hm, rfl⟩)
  obtain ⟨y, hy, hk, hyo⟩ := exists_of_mem_perms hX hx₀ this
  refine ⟨y, hy, hyo, ?_⟩
  have hv := h.val y hy kv.2 (by rw [← hk]; exact hm)
  rw [← hk, ← hv]

theorem Rep.eq_map {X : List V} (hX : X.Nodup) {tt : TT V S K} {f : (V → S) → K}
    (h : Rep dom X tt f) {x₀ : V → S} (hx₀ : Valid dom x₀) :
    tt = (tt.map Prod.fst).map fun k => (k, f (ovr k x₀)) := by
  rw [List.map_map]
  conv_lhs => rw [← List.map_id tt]
  refine List.map_congr_left fun kv hkv => ?_
  obtain ⟨y, _, hy, he⟩ := h.entry hX hx₀ hkv
  simp only [id, Function.comp]
  rw [← hy]
  conv_lhs => rw [he]
  rw [he]

/-- The table as a sum. -/
theorem Rep.sum [AddCommMonoid K] {X : List V} (hX : X.Nodup) {tt : TT V S K} {f : (V → S) → K}
    (h : Rep dom X tt f) {x₀ : V → S} (hx₀ : Valid dom x₀) (G : Key V S × K → K) :
    (tt.map G).sum = ((perms dom X).map fun k => G (k, f (ovr k x₀))).sum := by
  rw [h.eq_map hX hx₀, List.map_map]
  exact (h.keys.map _).sum_eq

theorem transform_keyOf {X R : List V} (hRX : ∀ r ∈ R, r ∈ X) (x : V → S) :
    transform (keyOf X x) X R = .ok (keyOf R x) := by
  apply mapM_ok_of
  intro r hr
  have hrX := hRX r hr
  simp only [hrX, if_true]
  have hlt : X.idxOf r < X.length := List.idxOf_lt_length_of_mem hrX
  have : (keyOf X x)[X.idxOf r]? = some (r, x r) := by
    simp only [keyOf, List.getElem?_map, List.getElem?_eq_getElem hlt, Option.map_some,
      List.getElem_idxOf]
  rw [this]

/-! #### `project` -/

theorem addTo_keys [Add K] [Zero K] (tt : TT V S K) (k : Key V S) (v : K) :
    (addTo tt k v).map Prod.fst =
      if k ∈ tt.map Prod.fst then tt.map Prod.fst else tt.map Prod.fst ++ [k] := by
  induction tt with
  | nil => simp [addTo]
  | cons p tt ih =>
    rw [addTo]
    by_cases h : p.1 = k
    · simp [h]
    · have h' : ¬ k = p.1 := fun e => h e.symm
      simp only [h, if_false, List.map_cons, ih, List.mem_cons, h', false_or]
      split <;> simp

theorem addTo_lookup [AddMonoid K] (tt : TT V S K) (k k' : Key V S) (v : K) :
    (addTo tt k v).lookup k' =
      if k' = k then some ((tt.lookup k).getD 0 + v) else tt.lookup k' := by
  induction tt with
  | nil =>
    by_cases h : k' = k
    · simp [addTo, h]
    · have : (k' == k) = false := by simpa using h
      simp [addTo, h, List.lookup_cons, this]
  | cons p tt ih =>
    obtain ⟨p1, p2⟩ := p
    rw [addTo]
    by_cases h : p1 = k
    · subst h
      by_cases h2 : k' = p1
      · simp [h2]
      · have : (k' == p1) = false := by simpa using h2
        simp [h2, List.lookup_cons, this]
    · have hk : (k == p1) = false := by simpa using fun e : k = p1 => h e.symm
      simp only [h, if_false]
      rw [List.lookup_cons]
      by_cases h2 : k' = p1
      · have h3 : k' ≠ k := fun e => h (h2 ▸ e)
        subst h2
        simp [h]
      · have : (k' == p1) = false := by simpa using h2
        rw [this, ih]
        simp only [List.lookup_cons, hk, this]

theorem project_eq_foldl [AddMonoid K] {tt : TT V S K} {X R : List V} (T : Key V S → Key V S)
    (h : ∀ kv ∈ tt, transform kv.1 X R = .ok (T kv.1)) :
    project tt X R = .ok (tt.foldl (fun acc kv => addTo acc (T kv.1) kv.2) []) := by
  unfold project
  generalize ([] : TT V S K) = acc
  induction tt generalizing acc with
  | nil => rfl
  | cons kv tt ih =>
    rw [List.foldlM_cons, h kv List.mem_cons_self]
    exact ih (fun kv hkv => h kv (List.mem_cons_of_mem _ hkv)) _

theorem foldl_addTo_keys_nodup [AddMonoid K] (T : Key V S → Key V S) (tt acc : TT V S K)
    (ha : (acc.map Prod.fst).Nodup) :
    ((tt.foldl (fun acc kv => addTo acc (T kv.1) kv.2) acc).map Prod.fst).Nodup := by
  induction tt generalizing acc with
  | nil => exact ha
  | cons kv tt ih =>
    apply ih
    rw [addTo_keys]
    split
    · exact ha
    · rename_i h
      rw [List.nodup_append]
      refine ⟨ha, by simp, ?_⟩
      intro a ha' b hb
      rw [List.mem_singleton] at hb
      subst hb
      rintro rfl
      exact h ha'

theorem foldl_addTo_mem_keys [AddMonoid K] (T : Key V S → Key V S) (tt acc : TT V S K)
    (k : Key V S) :
    k ∈ (tt.foldl (fun acc kv => addTo acc (T kv.1) kv.2) acc).map Prod.fst ↔
      k ∈ acc.map Prod.fst ∨ ∃ kv ∈ tt, T kv.1 = k := by
  induction tt generalizing acc with
  | nil => simp
  | cons kv tt ih =>
    rw [List.foldl_cons, ih, addTo_keys]
    by_cases hk : T kv.1 ∈ acc.map Prod.fst
    · rw [if_pos hk]
      constructor
      · rintro (h | ⟨q, hq, rfl⟩)
        · exact Or.inl h
        · exact Or.inr ⟨q, List.mem_cons_of_mem _ hq, rfl⟩
      · rintro (h | ⟨q, hq, rfl⟩)
        · exact Or.inl h
        · rcases List.mem_cons.1 hq with rfl | hq
          · exact Or.inl hk
          · exact Or.inr ⟨q, hq, rfl⟩
    · rw [if_neg hk, List.mem_append, List.mem_singleton]
      constructor
      · rintro ((h | h) | ⟨q, hq, rfl⟩)
        · exact Or.inl h
        · exact Or.inr ⟨kv, List.mem_cons_self, h.symm⟩
        · exact Or.inr ⟨q, List.mem_cons_of_mem _ hq, rfl⟩
      · rintro (h | ⟨q, hq, rfl⟩)
        · exact Or.inl (Or.inl h)
        · rcases List.mem_cons.1 hq with rfl | hq
          · exact Or.inl (Or.inr rfl)
          · exact Or.inr ⟨q, hq, rfl⟩

theorem foldl_addTo_lookup [AddCommMonoid K] (T : Key V S → Key V S) (tt acc : TT V S K)
    (k : Key V S) :
    ((tt.foldl (fun acc kv => addTo acc (T kv.1) kv.2) acc).lookup k).getD 0 =
      (acc.lookup k).getD 0 + (tt.map fun kv => if T kv.1 = k then kv.2 else 0).sum := by
  induction tt generalizing acc with
  | nil => simp
  | cons kv tt ih =>
    rw [List.foldl_cons, ih, addTo_lookup, List.map_cons, List.sum_cons, ← add_assoc]
    congr 1
    by_cases h : k = T kv.1
    · subst h; simp
    · rw [if_neg h, if_neg (fun e => h e.symm), add_zero]

/-- `project` sums out the variables that are not kept. -/
theorem project_rep [AddCommMonoid K] (hd : ∀ v, (dom v).Nodup) {X R : List V} (hX : X.Nodup)
    (hR : R.Nodup) (hRX : ∀ r ∈ R, r ∈ X) {tt : TT V S K} {f : (V → S) → K}
    (h : Rep dom X tt f) {x₀ : V → S} (hx₀ : Valid dom x₀) :
    ∃ tt', project tt X R = .ok tt' ∧ Rep dom R tt' (sumOver dom (X.filter (· ∉ R)) f) := by
  have hT : ∀ kv ∈ tt, transform kv.1 X R = .ok (keyOf R (ovr kv.1 x₀)) := by
    intro kv hkv
    obtain ⟨y, _, hy, he⟩ := h.entry hX hx₀ hkv
    rw [← hy]
    conv_lhs => rw [he]
    exact transform_keyOf hRX y
  refine ⟨_, project_eq_foldl (fun k => keyOf R (ovr k x₀)) hT, ?_, ?_⟩
  · apply (List.perm_ext_iff_of_nodup
      (foldl_addTo_keys_nodup (fun k => keyOf R (ovr k x₀)) tt [] List.nodup_nil)
      (perms_nodup hd R)).2
    intro k
    rw [foldl_addTo_mem_keys (fun k => keyOf R (ovr k x₀))]
    simp only [List.map_nil, List.not_mem_nil, false_or]
    constructor
    · rintro ⟨kv, hkv, rfl⟩
      obtain ⟨y, hyv, hy, -⟩ := h.entry hX hx₀ hkv
      rw [← hy]
      exact keyOf_mem_perms dom fun v _ => hyv v
    · intro hk
      obtain ⟨y, hyv, hy, -⟩ := exists_of_mem_perms hR hx₀ hk
      refine ⟨_, h.mem hyv, ?_⟩
      rw [hy, keyOf_eq_iff]
      intro v hv
      obtain ⟨w, hw, hw', he⟩ := h.entry hX hx₀ (h.mem hyv)
      simp only [Prod.mk.injEq] at he
      rw [← hw']
      exact ((keyOf_eq_iff.1 he.1) v (hRX v hv)).symm
  · intro x hx v hv
    have hl := lookup_of_mem_nodup
      (foldl_addTo_keys_nodup (fun k => keyOf R (ovr k x₀)) tt [] List.nodup_nil) hv
    have hs := foldl_addTo_lookup (fun k => keyOf R (ovr k x₀)) tt [] (keyOf R x)
    rw [hl] at hs
    simp only [Option.getD_some, List.lookup_nil, Option.getD_none, zero_add] at hs
    rw [hs, h.sum hX hx, ← sum_perms_filter hd hX hR hRX f hx]
    refine congrArg List.sum (List.map_congr_left fun k hk => ?_)
    have : keyOf R (ovr k x₀) = keyOf R (ovr k x) := by
      rw [keyOf_eq_iff]
      intro r hr
      obtain ⟨h1, -⟩ := (mem_perms_iff dom k).1 hk
      have e1 := keyOf_ovr k x₀ (h1 ▸ hX)
      have e2 := keyOf_ovr k x (h1 ▸ hX)
      rw [h1] at e1 e2
      exact (keyOf_eq_iff.1 (e1.trans e2.symm)) r (hRX r hr)
    simp only [this]

/-! #### `absorb` -/

theorem absorb_rep [Field K] [DecidableEq K] (hd : ∀ v, (dom v).Nodup) {Y R : List V}
    (hY : Y.Nodup) (hRY : ∀ r ∈ R, r ∈ Y)
    {tt new old : TT V S K} {f g o : (V → S) → K} (hf : Rep dom Y tt f) (hg : Rep dom R new g)
    (ho : Rep dom R old o) (hz : ∀ x, Valid dom x → f x ≠ 0 → o x ≠ 0)
    {x₀ : V → S} (hx₀ : Valid dom x₀) :
    ∃ tt', absorb tt Y R new old = .ok tt' ∧
      Rep dom Y tt' (fun x => if f x = 0 then 0 else f x * (g x / o x)) := by
  let G : Key V S × K → Key V S × K := fun kv =>
    (kv.1, if kv.2 = 0 then 0 else kv.2 * (g (ovr kv.1 x₀) / o (ovr kv.1 x₀)))
  have hG : ∀ kv ∈ tt, absorbEntry Y R new old kv = .ok (G kv) := by
    intro kv hkv
    obtain ⟨y, hyv, hy, he⟩ := hf.entry hY hx₀ hkv
    have htr : transform kv.1 Y R = .ok (keyOf R y) := by
      rw [he]
      exact transform_keyOf hRY y
    simp only [absorbEntry, htr, G, ← hy]
    by_cases h0 : kv.2 = 0
    · simp only [bind, Except.bind, h0, if_true]; rfl
    · have h0' : f y ≠ 0 := by rw [he] at h0; exact h0
      have ho' := hz y hyv h0'
      simp only [bind, Except.bind, h0, if_false, ho.lookup hd hyv, hg.lookup hd hyv, ho',
        Option.getD_some]
      rfl
  refine ⟨_, mapM_ok_of hG, ?_, ?_⟩
  · rw [List.map_map]
    exact hf.keys
  · intro x hx v hv
    obtain ⟨kv, hkv, he⟩ := List.mem_map.1 hv
    simp only [G, Prod.mk.injEq] at he
    obtain ⟨hk, hv'⟩ := he
    have hfv : kv.2 = f x := hf.val x hx kv.2 (by rw [← hk]; exact hkv)
    rw [← hv', hfv]
    by_cases h0 : f x = 0
    · simp [h0]
    · simp only [h0, if_false]
      have hR' : keyOf R (ovr kv.1 x₀) = keyOf R x := by
        rw [keyOf_eq_iff]
        intro r hr
        have e1 := keyOf_ovr kv.1 x₀ (by rw [hk]; simpa [keyOf, Function.comp_def] using hY)
        have e2 : kv.1.map Prod.fst = Y := by rw [hk]; simp [keyOf, Function.comp_def]
        rw [e2, hk] at e1
        rw [hk]
        exact keyOf_eq_iff.1 e1 r (hRY r hr)
      have hval : Valid dom (ovr kv.1 x₀) := by
        apply ovr_valid hx₀
        have : kv.1 ∈ perms dom Y := hf.keys.mem_iff.1 (List.mem_map.2 ⟨kv, hkv, rfl⟩)
        exact ((mem_perms_iff dom kv.1).1 this).2
      have e1 := hg.lookup hd hval
      rw [hR', hg.lookup hd hx] at e1
      have e2 := ho.lookup hd hval
      rw [hR', ho.lookup hd hx] at e2
      rw [Option.some.inj e1, Option.some.inj e2]

/-! #### Initial tables -/

theorem keyOf_lookup {X : List V} {v : V} (hv : v ∈ X) (x : V → S) :
    (keyOf X x).lookup v = some (x v) := by
  induction X with
  | nil => simp at hv
  | cons w X ih =>
    simp only [keyOf, List.map_cons, List.lookup_cons]
    by_cases h : v = w
    · subst h; simp
    · have : (v == w) = false := by simpa using h
      rw [this]
      exact ih (by simpa [h] using hv)

theorem argList_keyOf {X args : List V} (h : ∀ a ∈ args, a ∈ X) (x : V → S) :
    argList (keyOf X x) args = .ok (args.map x) := by
  apply mapM_ok_of
  intro a ha
  rw [keyOf_lookup (h a ha)]

theorem potential_keyOf [Field K] {X : List V} {ns : List (Node V S K)}
    (h : ∀ n ∈ ns, ∀ a ∈ n.args, a ∈ X) (x : V → S) :
    potential (keyOf X x) ns = .ok ((ns.map fun n => n.fn (n.args.map x)).prod) := by
  unfold potential
  have : ∀ acc : K, List.foldlM (fun acc (n : Node V S K) => do
      let a ← argList (keyOf X x) n.args
      return acc * n.fn a) acc ns =
      (Except.ok (acc * (ns.map fun n => n.fn (n.args.map x)).prod) : Except Err K) := by
    induction ns with
    | nil => intro acc; simp [pure, Except.pure]
    | cons n ns ih =>
      intro acc
      rw [List.foldlM_cons, argList_keyOf (h n List.mem_cons_self)]
      have := ih (fun m hm => h m (List.mem_cons_of_mem _ hm)) (acc * n.fn (n.args.map x))
      rw [List.map_cons, List.prod_cons, ← mul_assoc]
      exact this
  rw [this, one_mul]

theorem ones_rep [Field K] (X : List V) : Rep dom X ((perms dom X).map fun k => (k, (1 : K)))
    (fun _ => 1) := by
  constructor
  · rw [List.map_map]; simp [Function.comp_def]
  · intro x _ v hv
    obtain ⟨k, _, h⟩ := List.mem_map.1 hv
    simp only [Prod.mk.injEq] at h
    exact h.2.symm

theorem cliqueTable_rep [Field K] {X : List V} (hX : X.Nodup) {ns : List (Node V S K)}
    (h : ∀ n ∈ ns, ∀ a ∈ n.args, a ∈ X) {x₀ : V → S} (hx₀ : Valid dom x₀) :
    ∃ tt, cliqueTable dom X ns = .ok tt ∧
      Rep dom X tt (fun x => (ns.map fun n => n.fn (n.args.map x)).prod) := by
  have hG : ∀ k ∈ perms dom X, (do
      let p ← potential k ns
      return (k, p) : Except Err (Key V S × K)) =
      .ok (k, (ns.map fun n => n.fn (n.args.map (ovr k x₀))).prod) := by
    intro k hk
    obtain ⟨y, _, hy, hyo⟩ := exists_of_mem_perms hX hx₀ hk
    have : potential k ns = .ok ((ns.map fun n => n.fn (n.args.map (ovr k x₀))).prod) := by
      rw [← hyo, hy]; exact potential_keyOf h y
    rw [this]; rfl
  refine ⟨_, mapM_ok_of hG, ?_, ?_⟩
  · rw [List.map_map]; simp [Function.comp_def]
  · intro x _ v hv
    obtain ⟨k, hk, he⟩ := List.mem_map.1 hv
    simp only [Prod.mk.injEq] at he
    obtain ⟨rfl, rfl⟩ := he
    congr 1
    refine List.map_congr_left fun n hn => ?_
    congr 1
    refine List.map_congr_left fun a ha => ?_
    have e1 := keyOf_ovr (keyOf X x) x₀ (by simpa [keyOf, Function.comp_def] using hX)
    have e2 : (keyOf X x).map Prod.fst = X := by simp [keyOf, Function.comp_def]
    rw [e2] at e1
    exact keyOf_eq_iff.1 e1 a (h n hn a ha)

theorem zeroEvidence_rep [Field K] {X : List V} {tt : TT V S K} {f : (V → S) → K}
    (h : Rep dom X tt f) {v : V} (hv : v ∈ X) (s : S) :
    Rep dom X (zeroEvidence tt v s) (fun x => if x v = s then f x else 0) := by
  constructor
  · have : (zeroEvidence tt v s).map Prod.fst = tt.map Prod.fst := by
      unfold zeroEvidence
      rw [List.map_map]
      refine List.map_congr_left fun kv _ => ?_
      simp only [Function.comp]
      split <;> rfl
    rw [this]; exact h.keys
  · intro x hx w hw
    obtain ⟨kv, hkv, he⟩ := List.mem_map.1 hw
    have hany : kv.1 = keyOf X x →
        (kv.1.any (fun p => p.1 = v && p.2 ≠ s) = true ↔ x v ≠ s) := by
      intro hk
      rw [hk, List.any_eq_true]
      constructor
      · rintro ⟨p, hp, hq⟩
        obtain ⟨u, _, rfl⟩ := List.mem_map.1 hp
        simp only [Bool.and_eq_true, decide_eq_true_eq] at hq
        rw [← hq.1]; exact hq.2
      · intro hne
        exact ⟨(v, x v), List.mem_map.2 ⟨v, hv, rfl⟩, by simpa using hne⟩
    by_cases hc : kv.1.any (fun p => p.1 = v && p.2 ≠ s) = true
    · rw [if_pos hc] at he
      simp only [Prod.mk.injEq] at he
      have := (hany he.1).1 hc
      rw [if_neg this, he.2]
    · rw [if_neg hc] at he
      have hk : kv.1 = keyOf X x := by rw [he]
      have : x v = s := by
        by_contra hne
        exact hc ((hany hk).2 hne)
      rw [if_pos this]
      exact h.val x hx w (he ▸ hkv)

end

end Verif.BBN
