import Verif.Network.Model
import Verif.BBN.EngineInv
import Mathlib.Order.Interval.Finset.Nat

/-!
# Lemmas about the model of `BayesianNetwork`
-/

namespace Verif.Network

open Verif.BBN (lookup_mem lookup_of_mem_nodup lookup_isSome_iff)

/-! ### Lists -/

theorem mapM_ok {α β ε : Type} {f : α → Except ε β} {g : α → β} {l : List α}
    (h : ∀ a ∈ l, f a = .ok (g a)) : l.mapM f = .ok (l.map g) := by
  induction l with
  | nil => rfl
  | cons a l ih =>
    rw [List.mapM_cons, h a (by simp), ih fun b hb => h b (by simp [hb])]
    rfl

theorem mapM_error {α β ε : Type} {f : α → Except ε β} {e : ε} {l : List α}
    (h : ∀ a ∈ l, (∃ b, f a = .ok b) ∨ f a = .error e) (hex : ∃ a ∈ l, f a = .error e) :
    l.mapM f = .error e := by
  induction l with
  | nil => simp at hex
  | cons a l ih =>
    rw [List.mapM_cons]
    rcases h a (by simp) with ⟨b, hb⟩ | he
    · obtain ⟨x, hx, hxe⟩ := hex
      have hxl : x ∈ l := by
        rcases List.mem_cons.1 hx with rfl | hx
        · rw [hb] at hxe; simp at hxe
        · exact hx
      rw [hb, ih (fun y hy => h y (by simp [hy])) ⟨x, hxl, hxe⟩]
      rfl
    · rw [he]
      rfl

theorem mapM_forall₂ {α β ε : Type} {f : α → Except ε β} {l : List α} {l' : List β}
    (h : l.mapM f = .ok l') : List.Forall₂ (fun a b => f a = .ok b) l l' := by
  induction l generalizing l' with
  | nil =>
    rw [List.mapM_nil] at h
    cases h
    exact .nil
  | cons a l ih =>
    rw [List.mapM_cons] at h
    simp only [bind, Except.bind, pure, Except.pure] at h
    split at h
    · exact absurd h (by simp)
    · rename_i b hb
      split at h
      · exact absurd h (by simp)
      · rename_i bs hbs
        cases h
        exact .cons hb (ih hbs)

theorem lookup_eq_none {α β : Type} [BEq α] [LawfulBEq α] {l : List (α × β)} {a : α} :
    l.lookup a = none ↔ a ∉ l.map Prod.fst := by
  rw [← lookup_isSome_iff]
  cases l.lookup a <;> simp

theorem mem_product {α : Type} {ls : List (List α)} {t : List α} :
    t ∈ product ls ↔ List.Forall₂ (fun a l => a ∈ l) t ls := by
  induction ls generalizing t with
  | nil => simp [product]
  | cons l ls ih =>
    simp only [product, List.mem_flatMap, List.mem_map]
    constructor
    · rintro ⟨a, ha, t, ht, rfl⟩
      exact .cons ha (ih.1 ht)
    · intro h
      cases h with
      | cons ha ht => exact ⟨_, ha, _, ih.2 ht, rfl⟩

theorem product_nodup {α : Type} {ls : List (List α)} (h : ∀ l ∈ ls, l.Nodup) :
    (product ls).Nodup := by
  induction ls with
  | nil => simp [product]
  | cons l ls ih =>
    rw [product, List.nodup_flatMap]
    refine ⟨fun a _ => (ih fun l' hl' => h l' (by simp [hl'])).map (List.cons_injective), ?_⟩
    refine (h l (by simp)).imp ?_
    intro a b hab
    rw [Function.onFun, List.disjoint_left]
    rintro t ht ht'
    simp only [List.mem_map] at ht ht'
    obtain ⟨u, -, rfl⟩ := ht
    obtain ⟨w, -, h⟩ := ht'
    exact hab (by injection h with h1 _; exact h1.symm)

theorem length_product {α : Type} (ls : List (List α)) :
    (product ls).length = (ls.map List.length).prod := by
  induction ls with
  | nil => rfl
  | cons l ls ih => simp [product, List.length_flatMap, ih]

theorem product_map {α β : Type} (f : α → β) (ls : List (List α)) :
    product (ls.map (·.map f)) = (product ls).map (·.map f) := by
  induction ls with
  | nil => rfl
  | cons l ls ih =>
    simp only [product, List.map_cons, ih, List.flatMap_map, List.map_flatMap, List.map_map]
    rfl

/-! ### Construction -/

section
variable {V S K : Type} [LinearOrder V] [LinearOrder S]

theorem nodesOfEdges_aux (E : List (V × V)) (acc : List V) (hacc : acc.Nodup) :
    (E.foldl (fun acc e =>
      let acc := if e.1 ∈ acc then acc else acc ++ [e.1]
      if e.2 ∈ acc then acc else acc ++ [e.2]) acc).Nodup ∧
    ∀ v, v ∈ E.foldl (fun acc e =>
      let acc := if e.1 ∈ acc then acc else acc ++ [e.1]
      if e.2 ∈ acc then acc else acc ++ [e.2]) acc ↔
      v ∈ acc ∨ ∃ e ∈ E, v = e.1 ∨ v = e.2 := by
  induction E generalizing acc with
  | nil => simpa using hacc
  | cons e E ih =>
    have key : ∀ (l : List V) (x : V), l.Nodup →
        (if x ∈ l then l else l ++ [x]).Nodup ∧
        ∀ v, v ∈ (if x ∈ l then l else l ++ [x]) ↔ v ∈ l ∨ v = x := by
      intro l x hl
      split
      · rename_i hx
        exact ⟨hl, fun v => ⟨Or.inl, fun h => h.elim id fun h => h ▸ hx⟩⟩
      · rename_i hx
        refine ⟨?_, by simp⟩
        rw [List.nodup_append]
        refine ⟨hl, by simp, ?_⟩
        rintro a ha b hb rfl
        simp only [List.mem_singleton] at hb
        exact hx (hb ▸ ha)
    obtain ⟨n1, m1⟩ := key acc e.1 hacc
    obtain ⟨n2, m2⟩ := key _ e.2 n1
    obtain ⟨n3, m3⟩ := ih _ n2
    rw [List.foldl_cons]
    refine ⟨n3, fun v => ?_⟩
    rw [m3, m2, m1]
    simp only [List.mem_cons, exists_eq_or_imp, or_assoc]

theorem nodesOfEdges_nodup (E : List (V × V)) : (nodesOfEdges E).Nodup :=
  (nodesOfEdges_aux E [] List.nodup_nil).1

theorem mem_nodesOfEdges {E : List (V × V)} {v : V} :
    v ∈ nodesOfEdges E ↔ ∃ e ∈ E, v = e.1 ∨ v = e.2 := by
  rw [nodesOfEdges, (nodesOfEdges_aux E [] List.nodup_nil).2 v]
  simp

/-! ### Encoding -/

theorem lookup_cons' {α β : Type} [DecidableEq α] (q : α × β) (d : List (α × β)) (s : α) :
    (q :: d).lookup s = if s = q.1 then some q.2 else d.lookup s := by
  rw [List.lookup_cons]
  by_cases h : s = q.1
  · simp [h]
  · have : (s == q.1) = false := by simpa using h
    simp [this, h]

theorem lookup_append_single {α β : Type} [DecidableEq α] {d : List (α × β)} {v s : α} {k : β}
    (h : v ∉ d.map Prod.fst) :
    (d ++ [(v, k)]).lookup s = if s = v then some k else d.lookup s := by
  induction d with
  | nil =>
    by_cases hs : s = v <;> simp [lookup_cons', hs]
  | cons q d ih =>
    simp only [List.map_cons, List.mem_cons, not_or] at h
    rw [List.cons_append, lookup_cons', lookup_cons', ih h.2]
    by_cases hq : s = q.1
    · subst hq
      simp [Ne.symm h.1]
    · simp [hq]

theorem lookup_map_replace {α β : Type} [DecidableEq α] {d : List (α × β)} {v s : α} {k : β}
    (h : v ∈ d.map Prod.fst) :
    (d.map fun q => if q.1 = v then (v, k) else q).lookup s =
      if s = v then some k else d.lookup s := by
  induction d with
  | nil => simp at h
  | cons q d ih =>
    obtain ⟨a, b⟩ := q
    simp only [List.map_cons]
    by_cases hav : a = v
    · subst hav
      simp only [if_true, lookup_cons']
      by_cases hs : s = a
      · simp [hs]
      · simp only [hs, if_false]
        by_cases hm : a ∈ d.map Prod.fst
        · simpa [hs] using ih hm
        · have : (d.map fun q => if q.1 = a then (a, k) else q) = d := by
            conv_rhs => rw [← List.map_id d]
            apply List.map_congr_left
            intro q hq
            rw [if_neg]
            · rfl
            · rintro rfl
              exact hm (List.mem_map_of_mem hq)
          rw [this]
    · have hm : v ∈ d.map Prod.fst := by
        simp only [List.map_cons, List.mem_cons] at h
        exact h.resolve_left fun h => hav h.symm
      simp only [hav, if_false, lookup_cons', ih hm]
      by_cases hs : s = a
      · subst hs; simp [hav]
      · simp [hs]

theorem enumDict_lookup (l : List S) (hl : l.Pairwise (· ≤ ·)) (k : ℕ) (d : List (S × ℕ)) (s : S) :
    (enumDict k l d).lookup s =
      if s ∈ l then some (k + (l.filter (· ≤ s)).length - 1) else d.lookup s := by
  induction l generalizing k d with
  | nil => simp [enumDict]
  | cons v l ih =>
    rw [List.pairwise_cons] at hl
    rw [enumDict, ih hl.2]
    have hd : List.lookup s (if v ∈ d.map Prod.fst then
        d.map fun q => if q.1 = v then (v, k) else q else d ++ [(v, k)]) =
        if s = v then some k else d.lookup s := by
      split
      · rename_i h; exact lookup_map_replace h
      · rename_i h; exact lookup_append_single h
    rw [hd]
    by_cases hs : s ∈ l
    · have hvs : v ≤ s := hl.1 s hs
      simp only [hs, if_true, List.mem_cons, or_true, List.filter_cons, hvs, decide_true,
        List.length_cons]
      congr 1
      omega
    · simp only [hs, if_false, List.mem_cons, or_false]
      by_cases hsv : s = v
      · subst hsv
        have : l.filter (· ≤ s) = [] := by
          rw [List.filter_eq_nil_iff]
          intro x hx hxs
          have : x = s := le_antisymm (by simpa using hxs) (hl.1 x hx)
          exact hs (this ▸ hx)
        simp [this]
      · simp [hsv]

/-- Keys of the dictionary stay strictly sorted. -/
theorem enumDict_sorted (l : List S) (hl : l.Pairwise (· ≤ ·)) (k : ℕ) (d : List (S × ℕ))
    (hd : (d.map Prod.fst).Pairwise (· < ·)) (hdl : ∀ q ∈ d, ∀ s ∈ l, q.1 ≤ s) :
    ((enumDict k l d).map Prod.fst).Pairwise (· < ·) := by
  induction l generalizing k d with
  | nil => exact hd
  | cons v l ih =>
    rw [List.pairwise_cons] at hl
    rw [enumDict]
    apply ih hl.2
    · split
      · have : (d.map fun q => if q.1 = v then (v, k) else q).map Prod.fst = d.map Prod.fst := by
          rw [List.map_map]
          apply List.map_congr_left
          intro q _
          by_cases h : q.1 = v <;> simp [h]
        rw [this]
        exact hd
      · rename_i hv
        rw [List.map_append, List.pairwise_append]
        refine ⟨hd, by simp, ?_⟩
        intro a ha b hb
        simp only [List.map_cons, List.map_nil, List.mem_singleton] at hb
        subst hb
        obtain ⟨q, hq, rfl⟩ := List.mem_map.1 ha
        refine lt_of_le_of_ne (hdl q hq _ (by simp)) ?_
        intro h
        exact hv (h ▸ ha)
    · intro q hq s hs
      split at hq
      · obtain ⟨q', hq', rfl⟩ := List.mem_map.1 hq
        split
        · exact hl.1 s hs
        · exact hdl q' hq' s (by simp [hs])
      · rcases List.mem_append.1 hq with hq | hq
        · exact hdl q hq s (by simp [hs])
        · simp only [List.mem_singleton] at hq
          subst hq
          exact hl.1 s hs

theorem sorted_insertionSort (l : List S) : (l.insertionSort (· ≤ ·)).Pairwise (· ≤ ·) := by
  exact List.pairwise_insertionSort (· ≤ ·) l

theorem mem_insertionSort' {l : List S} {s : S} : s ∈ l.insertionSort (· ≤ ·) ↔ s ∈ l :=
  (List.perm_insertionSort (· ≤ ·) l).mem_iff

theorem encoding_lookup (l : List S) (s : S) :
    (encoding l).lookup s =
      if s ∈ l then some ((l.filter (· ≤ s)).length - 1) else none := by
  rw [encoding, enumDict_lookup _ (sorted_insertionSort l)]
  have : ((l.insertionSort (· ≤ ·)).filter (· ≤ s)).length = (l.filter (· ≤ s)).length :=
    ((List.perm_insertionSort (· ≤ ·) l).filter _).length_eq
  simp [this, mem_insertionSort']

theorem encoding_keys_sorted (l : List S) : ((encoding l).map Prod.fst).Pairwise (· < ·) :=
  enumDict_sorted _ (sorted_insertionSort l) _ _ (by simp) (by simp)

theorem encoding_keys_nodup (l : List S) : ((encoding l).map Prod.fst).Nodup :=
  (encoding_keys_sorted l).imp fun h => ne_of_lt h

theorem mem_encoding_keys {l : List S} {s : S} : s ∈ (encoding l).map Prod.fst ↔ s ∈ l := by
  rw [← lookup_isSome_iff, encoding_lookup]
  by_cases h : s ∈ l <;> simp [h]

theorem insertionSort_of_sorted {l : List S} (h : l.Pairwise (· < ·)) : l.insertionSort (· ≤ ·) = l := by
  exact (h.imp fun h => h.le).insertionSort_eq

theorem encoding_perm {l l' : List S} (h : l.Perm l') : encoding l = encoding l' := by
  rw [encoding, encoding]
  congr 1
  refine List.Perm.eq_of_pairwise (le := (· ≤ ·)) ?_ (sorted_insertionSort l) (sorted_insertionSort l') ?_
  · exact fun a b _ _ h h' => le_antisymm h h'
  · exact ((List.perm_insertionSort (· ≤ ·) l).trans h).trans (List.perm_insertionSort (· ≤ ·) l').symm

/-- Codes of different states differ. -/
theorem encoding_injective {l : List S} {s t : S} {i : ℕ} (hs : (encoding l).lookup s = some i)
    (ht : (encoding l).lookup t = some i) : s = t := by
  rw [encoding_lookup] at hs ht
  have key : ∀ s t : S, s ∈ l → t ∈ l → s < t →
      (l.filter (· ≤ s)).length < (l.filter (· ≤ t)).length := by
    intro s t _ htl hst
    have hsub : (l.filter (· ≤ s)).Sublist (l.filter (· ≤ t)) := by
      apply List.monotone_filter_right
      intro a ha
      simp only [decide_eq_true_eq] at *
      exact ha.trans hst.le
    refine lt_of_le_of_ne hsub.length_le fun h => ?_
    have h := hsub.eq_of_length h
    have : t ∈ l.filter (· ≤ s) := by rw [h]; simp [htl]
    simp only [List.mem_filter, decide_eq_true_eq] at this
    exact absurd this.2 (not_le.2 hst)
  have pos : ∀ s ∈ l, 0 < (l.filter (· ≤ s)).length := by
    intro s hs
    exact List.length_pos_of_mem (a := s) (by simp [hs])
  by_cases hsl : s ∈ l
  · by_cases htl : t ∈ l
    · simp only [hsl, htl, if_true, Option.some.injEq] at hs ht
      have := pos s hsl
      have := pos t htl
      rcases lt_trichotomy s t with h | h | h
      · have := key s t hsl htl h; omega
      · exact h
      · have := key t s htl hsl h; omega
    · simp [htl] at ht
  · simp [hsl] at hs

theorem encoding_code {l : List S} (hl : l.Nodup) {s : S} (hs : s ∈ l) :
    (encoding l).lookup s = some (l.filter (· < s)).length := by
  rw [encoding_lookup, if_pos hs]
  congr 1
  have : (l.filter (· ≤ s)).Perm (s :: l.filter (· < s)) := by
    rw [List.perm_ext_iff_of_nodup (hl.filter _)]
    · intro a
      simp only [List.mem_filter, decide_eq_true_eq, List.mem_cons, le_iff_lt_or_eq]
      constructor
      · rintro ⟨h, h' | h'⟩
        · exact Or.inr ⟨h, h'⟩
        · exact Or.inl h'
      · rintro (rfl | h)
        · exact ⟨hs, Or.inr rfl⟩
        · exact ⟨h.1, Or.inl h.2⟩
    · rw [List.nodup_cons]
      exact ⟨by simp, hl.filter _⟩
  rw [this.length_eq]
  simp

theorem enumDict_nodup (l : List S) (k : ℕ) (d : List (S × ℕ)) (hl : l.Nodup)
    (hd : ∀ s ∈ l, s ∉ d.map Prod.fst) : enumDict k l d = d ++ l.zipIdx k := by
  induction l generalizing k d with
  | nil => simp [enumDict]
  | cons v l ih =>
    rw [List.nodup_cons] at hl
    rw [enumDict, if_neg (hd v (by simp)), ih _ _ hl.2]
    · simp [List.zipIdx_cons]
    · intro s hs
      rw [List.map_append, List.mem_append, not_or]
      refine ⟨hd s (by simp [hs]), ?_⟩
      simp only [List.map_cons, List.map_nil, List.mem_singleton]
      rintro rfl
      exact hl.1 hs

theorem encoding_codes {l : List S} (hl : l.Nodup) :
    (encoding l).map Prod.snd = List.range l.length := by
  rw [encoding, enumDict_nodup]
  · rw [List.nil_append, List.zipIdx_map_snd, (List.perm_insertionSort (· ≤ ·) l).length_eq,
      List.range_eq_range']
  · exact (List.perm_insertionSort (· ≤ ·) l).nodup_iff.2 hl
  · simp

end

end Verif.Network
