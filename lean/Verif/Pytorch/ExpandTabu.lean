import Verif.Pytorch.ExpandProps

/-!
# Excluded edges after the expansion (C60)
-/

namespace Verif.Pytorch

open Verif.Str

theorem mem_permPairs {g : List ℕ} (hn : g.Nodup) (a b : ℕ) : (a, b) ∈ permPairs g ↔ a ∈ g ∧ b ∈ g ∧ a ≠ b := by
  simp only [permPairs, List.mem_flatMap, List.mem_map, List.mem_filter, decide_eq_true_eq, Prod.mk.injEq, Prod.exists,
    List.mem_zipIdx_iff_getElem?]
  constructor
  · rintro ⟨x, i, hi, y, j, ⟨hj, hne⟩, rfl, rfl⟩
    refine ⟨List.mem_of_getElem? hi, List.mem_of_getElem? hj, ?_⟩
    rintro rfl
    obtain ⟨h1, h1'⟩ := List.getElem?_eq_some_iff.1 hi
    obtain ⟨h2, h2'⟩ := List.getElem?_eq_some_iff.1 hj
    exact hne ((hn.getElem_inj_iff).1 (h2'.trans h1'.symm))
  · rintro ⟨ha, hb, hne⟩
    obtain ⟨i, hi⟩ := List.getElem?_of_mem ha
    obtain ⟨j, hj⟩ := List.getElem?_of_mem hb
    refine ⟨a, i, hi, b, j, ⟨hj, ?_⟩, rfl, rfl⟩
    rintro rfl
    rw [hi] at hj
    exact hne (Option.some.inj hj)

theorem updateTabuEdges_cons (c : ℕ) (r : List ℕ) (te : Option (List (ℕ × ℕ))) :
    updateTabuEdges (c :: r) te = some (te.getD [] ++ (te.getD []).flatMap (fun e =>
      if e.1 = c then r.map fun k => (k, e.2) else if e.2 = c then r.map fun k => (e.1, k) else []) ++ permPairs (c :: r)) := rfl

theorem updateTabuNodes_cons (c : ℕ) (r : List ℕ) (tn : Option (List ℕ)) :
    updateTabuNodes (c :: r) tn = tn.map fun l => l ++ l.flatMap fun i => if i = c then r else [] := rfl

/-- The column a column below `n + k` came from, when the column `c` was expanded by `k` columns from `n` on. -/
def source (c n a : ℕ) : ℕ := if a < n then a else c

theorem updateTabuEdges_mem (c n k : ℕ) (hc : c < n) (te : Option (List (ℕ × ℕ))) (hte : ∀ l, te = some l → ∀ e ∈ l, e.1 < n ∧ e.2 < n)
    (a b : ℕ) (ha : a < n + k) (hb : b < n + k) (hab : a ≠ b) :
    InOpt (a, b) (updateTabuEdges (c :: List.range' n k) te) ↔
      InOpt (source c n a, source c n b) te ∨ source c n a = source c n b := by
  have hn : (c :: List.range' n k).Nodup := by
    rw [List.nodup_cons]
    refine ⟨?_, List.nodup_range' ..⟩
    rw [List.mem_range'_1]; omega
  have hmem : ∀ (x y : ℕ), InOpt (x, y) te ↔ (x, y) ∈ te.getD [] := by
    intro x y
    cases te <;> simp [InOpt]
  have hbd : ∀ e ∈ te.getD [], e.1 < n ∧ e.2 < n := by
    cases te with
    | none => simp
    | some l => exact hte l rfl
  have hin : InOpt (a, b) (updateTabuEdges (c :: List.range' n k) te) ↔
      ((a, b) ∈ te.getD [] ∨ (∃ e ∈ te.getD [], e.1 = c ∧ (n ≤ a ∧ a < n + k) ∧ b = e.2) ∨
        (∃ e ∈ te.getD [], e.1 ≠ c ∧ e.2 = c ∧ (n ≤ b ∧ b < n + k) ∧ a = e.1)) ∨
      ((a = c ∨ (n ≤ a ∧ a < n + k)) ∧ (b = c ∨ (n ≤ b ∧ b < n + k)) ∧ a ≠ b) := by
    simp only [InOpt, updateTabuEdges_cons, Option.some.injEq, exists_eq_left', List.mem_append, mem_permPairs hn, List.mem_cons,
      List.mem_range'_1, List.mem_flatMap, or_assoc]
    refine or_congr Iff.rfl ?_
    rw [← or_assoc]
    refine or_congr ?_ Iff.rfl
    constructor
    · rintro ⟨e, he, h⟩
      split_ifs at h with h1 h2
      · simp only [List.mem_map, List.mem_range'_1, Prod.mk.injEq] at h
        obtain ⟨x, hx, rfl, rfl⟩ := h
        exact Or.inl ⟨e, he, h1, hx, rfl⟩
      · simp only [List.mem_map, List.mem_range'_1, Prod.mk.injEq] at h
        obtain ⟨x, hx, rfl, rfl⟩ := h
        exact Or.inr ⟨e, he, h1, h2, hx, rfl⟩
      · simp at h
    · rintro (⟨e, he, h1, hx, rfl⟩ | ⟨e, he, h1, h2, hx, rfl⟩)
      · refine ⟨e, he, ?_⟩
        rw [if_pos h1]
        exact List.mem_map.2 ⟨a, List.mem_range'_1.2 hx, rfl⟩
      · refine ⟨e, he, ?_⟩
        rw [if_neg h1, if_pos h2]
        exact List.mem_map.2 ⟨b, List.mem_range'_1.2 hx, rfl⟩
  rw [hin, hmem]
  by_cases han : a < n
  · by_cases hbn : b < n
    · rw [source, source, if_pos han, if_pos hbn]
      constructor
      · rintro ((h | ⟨e, _, _, h, _⟩ | ⟨e, _, _, _, h, _⟩) | ⟨h1, h2, _⟩)
        · exact Or.inl h
        · omega
        · omega
        · right; omega
      · rintro (h | h)
        · exact Or.inl (Or.inl h)
        · exact absurd h hab
    · rw [source, source, if_pos han, if_neg hbn]
      constructor
      · rintro ((h | ⟨e, he, _, h, _⟩ | ⟨e, he, _, h2, h, rfl⟩) | ⟨h1, h2, _⟩)
        · have := (hbd _ h).2; simp only at this; omega
        · omega
        · left; rw [← h2]; exact he
        · right; omega
      · rintro (h | h)
        · by_cases hac : a = c
          · right; exact ⟨Or.inl hac, Or.inr (by omega), hab⟩
          · left; right; right; exact ⟨(a, c), h, hac, rfl, by omega, rfl⟩
        · right; exact ⟨Or.inl h, Or.inr (by omega), hab⟩
  · by_cases hbn : b < n
    · rw [source, source, if_neg han, if_pos hbn]
      constructor
      · rintro ((h | ⟨e, he, h1, h, rfl⟩ | ⟨e, he, _, _, h, _⟩) | ⟨h1, h2, _⟩)
        · have := (hbd _ h).1; simp only at this; omega
        · left; rw [← h1]; exact he
        · omega
        · right; omega
      · rintro (h | h)
        · left; right; left; exact ⟨(c, b), h, rfl, by omega, rfl⟩
        · right; exact ⟨Or.inr (by omega), Or.inl h.symm, hab⟩
    · rw [source, source, if_neg han, if_neg hbn]
      exact ⟨fun _ => Or.inr rfl, fun _ => Or.inr ⟨Or.inr (by omega), Or.inr (by omega), hab⟩⟩

theorem updateTabuNodes_mem (c n k : ℕ) (hc : c < n) (tn : Option (List ℕ)) (htn : ∀ l, tn = some l → ∀ i ∈ l, i < n)
    (a : ℕ) (ha : a < n + k) :
    InOpt a (updateTabuNodes (c :: List.range' n k) tn) ↔ InOpt (source c n a) tn := by
  cases tn with
  | none => simp [InOpt, updateTabuNodes]
  | some l =>
    simp only [InOpt, updateTabuNodes_cons, Option.map_some, Option.some.injEq, exists_eq_left', List.mem_append,
      List.mem_flatMap]
    have hb := htn l rfl
    by_cases han : a < n
    · rw [source, if_pos han]
      constructor
      · rintro (h | ⟨i, _, h⟩)
        · exact h
        · split_ifs at h with h1
          · rw [List.mem_range'_1] at h; omega
          · simp at h
      · exact Or.inl
    · rw [source, if_neg han]
      constructor
      · rintro (h | ⟨i, hi, h⟩)
        · exact absurd (hb a h) han
        · split_ifs at h with h1
          · rw [← h1]; exact hi
          · simp at h
      · intro h
        right
        refine ⟨c, h, ?_⟩
        rw [if_pos rfl, List.mem_range'_1]; omega

/-- One type. -/
theorem updateTabu_mem {n : ℕ} {e : Enc} (hp : e.Placed n) {t : Notears.Tabu ℕ} (ht : TabuBelow n t) :
    TabuBelow (n + e.extra) (updateTabu e t) ∧
    (∀ a b, a < n + e.extra → b < n + e.extra → a ≠ b → (InOpt (a, b) (updateTabu e t).edges ↔
      InOpt (source e.idx n a, source e.idx n b) t.edges ∨ source e.idx n a = source e.idx n b)) ∧
    (∀ a, a < n + e.extra → (InOpt a (updateTabu e t).parents ↔ InOpt (source e.idx n a) t.parents)) ∧
    (∀ a, a < n + e.extra → (InOpt a (updateTabu e t).children ↔ InOpt (source e.idx n a) t.children)) := by
  have plain : e.extra = 0 → updateTabu e t = t → TabuBelow (n + e.extra) (updateTabu e t) ∧
      (∀ a b, a < n + e.extra → b < n + e.extra → a ≠ b → (InOpt (a, b) (updateTabu e t).edges ↔
        InOpt (source e.idx n a, source e.idx n b) t.edges ∨ source e.idx n a = source e.idx n b)) ∧
      (∀ a, a < n + e.extra → (InOpt a (updateTabu e t).parents ↔ InOpt (source e.idx n a) t.parents)) ∧
      (∀ a, a < n + e.extra → (InOpt a (updateTabu e t).children ↔ InOpt (source e.idx n a) t.children)) := by
    intro h0 ht'
    rw [h0, ht', Nat.add_zero]
    refine ⟨ht, ?_, ?_, ?_⟩
    · intro a b ha hb hab
      rw [source, source, if_pos ha, if_pos hb]
      simp [hab]
    · intro a ha; rw [source, if_pos ha]
    · intro a ha; rw [source, if_pos ha]
  cases e with
  | cont i => exact plain rfl rfl
  | bin i => exact plain rfl rfl
  | poiss i => exact plain rfl rfl
  | ord i cats counts => exact plain rfl rfl
  | cat i g cats =>
    obtain ⟨hi, hg, hne⟩ := hp
    subst hg
    have hn : (i :: List.range' n (cats.length - 1)).Nodup := by
      rw [List.nodup_cons]
      refine ⟨?_, List.nodup_range' ..⟩
      rw [List.mem_range'_1]; omega
    refine ⟨⟨?_, ?_, ?_⟩, ?_, ?_, ?_⟩
    · intro te hte e he
      simp only [updateTabu, updateTabuEdges_cons, Option.some.injEq] at hte
      have hbd : ∀ e ∈ t.edges.getD [], e.1 < n ∧ e.2 < n := by
        cases h : t.edges with
        | none => simp
        | some l => exact ht.1 l h
      rw [← hte, List.mem_append, List.mem_append, List.mem_flatMap] at he
      simp only [Enc.extra]
      rcases he with (he | ⟨f, hf, he⟩) | he
      · have := hbd e he; omega
      · have hf' := hbd f hf
        split_ifs at he with h1 h2
        · obtain ⟨x, hx, rfl⟩ := List.mem_map.1 he
          rw [List.mem_range'_1] at hx
          simp only; omega
        · obtain ⟨x, hx, rfl⟩ := List.mem_map.1 he
          rw [List.mem_range'_1] at hx
          simp only; omega
        · simp at he
      · obtain ⟨x, y⟩ := e
        rw [mem_permPairs hn] at he
        obtain ⟨h1, h2, -⟩ := he
        simp only [List.mem_cons, List.mem_range'_1] at h1 h2
        simp only; omega
    · intro tp htp k hk
      cases h : t.parents with
      | none => simp [updateTabu, updateTabuNodes, h] at htp
      | some l =>
        simp only [updateTabu, updateTabuNodes_cons, h, Option.map_some, Option.some.injEq] at htp
        rw [← htp, List.mem_append, List.mem_flatMap] at hk
        simp only [Enc.extra]
        rcases hk with hk | ⟨x, _, hk⟩
        · have := ht.2.1 l h k hk; omega
        · split_ifs at hk
          · rw [List.mem_range'_1] at hk; omega
          · simp at hk
    · intro tp htp k hk
      cases h : t.children with
      | none => simp [updateTabu, updateTabuNodes, h] at htp
      | some l =>
        simp only [updateTabu, updateTabuNodes_cons, h, Option.map_some, Option.some.injEq] at htp
        rw [← htp, List.mem_append, List.mem_flatMap] at hk
        simp only [Enc.extra]
        rcases hk with hk | ⟨x, _, hk⟩
        · have := ht.2.2 l h k hk; omega
        · split_ifs at hk
          · rw [List.mem_range'_1] at hk; omega
          · simp at hk
    · intro a b ha hb hab
      exact updateTabuEdges_mem i n _ hi t.edges ht.1 a b ha hb hab
    · intro a ha
      exact updateTabuNodes_mem i n _ hi t.parents ht.2.1 a ha
    · intro a ha
      exact updateTabuNodes_mem i n _ hi t.children ht.2.2 a ha

/-- `o` is the original column of the column `a`. -/
def Origin (es : List Enc) (n a o : ℕ) : Prop := (a < n ∧ o = a) ∨ ∃ e ∈ es, a ∈ e.cols ∧ o = e.idx

theorem tabu_fold (es : List Enc) : ∀ (n : ℕ) (t : Notears.Tabu ℕ), Laid n es → TabuBelow n t →
    let t' := es.foldl (fun t e => updateTabu e t) t
    (∀ a b o u, Origin es n a o → Origin es n b u → a ≠ b → (InOpt (a, b) t'.edges ↔ InOpt (o, u) t.edges ∨ o = u)) ∧
    (∀ a o, Origin es n a o → (InOpt a t'.parents ↔ InOpt o t.parents)) ∧
    (∀ a o, Origin es n a o → (InOpt a t'.children ↔ InOpt o t.children)) := by
  induction es with
  | nil =>
    intro n t _ _
    have ho : ∀ a o, Origin [] n a o → o = a := by
      rintro a o (⟨-, h⟩ | ⟨e, he, _⟩)
      · exact h
      · simp at he
    refine ⟨?_, ?_, ?_⟩
    · intro a b o u h1 h2 hab
      rw [ho a o h1, ho b u h2]
      simp [hab]
    · intro a o h; rw [ho a o h]; rfl
    · intro a o h; rw [ho a o h]; rfl
  | cons e es ih =>
    intro n t hl ht
    obtain ⟨hp, hd, hl'⟩ := hl
    obtain ⟨u1, u2, u3, u4⟩ := updateTabu_mem hp ht
    obtain ⟨i1, i2, i3⟩ := ih (n + e.extra) (updateTabu e t) hl' u1
    have step : ∀ a o, Origin (e :: es) n a o → ∃ o1, Origin es (n + e.extra) a o1 ∧ o1 < n + e.extra ∧ source e.idx n o1 = o := by
      rintro a o (⟨ha, rfl⟩ | ⟨e', he', ha, rfl⟩)
      · exact ⟨o, Or.inl ⟨by omega, rfl⟩, by omega, by rw [source, if_pos ha]⟩
      · rcases List.mem_cons.1 he' with rfl | he'
        · rw [hp.cols_eq] at ha
          have hi := hp.idx_lt
          rcases List.mem_cons.1 ha with rfl | ha
          · exact ⟨e'.idx, Or.inl ⟨by omega, rfl⟩, by omega, by rw [source, if_pos hi]⟩
          · rw [List.mem_range'_1] at ha
            exact ⟨a, Or.inl ⟨by omega, rfl⟩, by omega, by rw [source, if_neg (by omega)]⟩
        · have := (hd e' he').2
          exact ⟨e'.idx, Or.inr ⟨e', he', ha, rfl⟩, by omega, by rw [source, if_pos this]⟩
    refine ⟨?_, ?_, ?_⟩
    · intro a b o u ho hu hab
      obtain ⟨o1, p1, p2, p3⟩ := step a o ho
      obtain ⟨v1, q1, q2, q3⟩ := step b u hu
      refine (i1 a b o1 v1 p1 q1 hab).trans ?_
      by_cases heq : o1 = v1
      · have : o = u := by rw [← p3, ← q3, heq]
        exact ⟨fun _ => Or.inr this, fun _ => Or.inr heq⟩
      · rw [u2 o1 v1 p2 q2 heq, p3, q3]
        simp [heq]
    · intro a o ho
      obtain ⟨o1, p1, p2, p3⟩ := step a o ho
      rw [← p3, ← u3 o1 p2]
      exact i2 a o1 p1
    · intro a o ho
      obtain ⟨o1, p1, p2, p3⟩ := step a o ho
      rw [← p3, ← u4 o1 p2]
      exact i3 a o1 p1

/-- **C60**: for two different columns `a`, `b` of the expanded data, belonging to the variables `e` and `f`: the edge is excluded
exactly if the user excluded the edge between the variables or both columns belong to the same variable; a column is an excluded
parent (child) exactly if its variable is. -/
theorem tabu_expanded (X : Frame) (schema : Option (List (ℕ × Alias))) (t : Notears.Tabu ℕ) (p : Prep) (hwf : X.WF)
    (hd : SchemaDict schema) (ht : TabuBelow X.cols t) (h : prepareChecked X schema t = .ok p) :
    (∀ e ∈ p.encs, ∀ f ∈ p.encs, ∀ a ∈ e.cols, ∀ b ∈ f.cols, a ≠ b →
      (InOpt (a, b) p.tabu.edges ↔ InOpt (e.idx, f.idx) t.edges ∨ e.idx = f.idx)) ∧
    (∀ e ∈ p.encs, ∀ a ∈ e.cols, (InOpt a p.tabu.parents ↔ InOpt e.idx t.parents)) ∧
    (∀ e ∈ p.encs, ∀ a ∈ e.cols, (InOpt a p.tabu.children ↔ InOpt e.idx t.children)) := by
  obtain ⟨hne, -, hp, hperm⟩ := prepareChecked_ok h hd
  have hnd : ((schemaOf X schema).map Prod.fst).Nodup := hperm.nodup_iff.2 List.nodup_range
  have hlt : ∀ x ∈ schemaOf X schema, x.1 < X.cols := fun x hx =>
    List.mem_range.1 (hperm.mem_iff.1 (List.mem_map.2 ⟨x, hx, rfl⟩))
  obtain ⟨-, h2, -, -, h5, -⟩ := prepare_spec _ X t p hwf hne hnd hlt hp
  obtain ⟨k1, k2, k3⟩ := tabu_fold p.encs X.cols t h2 ht
  rw [← h5] at k1 k2 k3
  exact ⟨fun e he f hf a ha b hb hab => k1 a b _ _ (Or.inr ⟨e, he, ha, rfl⟩) (Or.inr ⟨f, hf, hb, rfl⟩) hab,
    fun e he a ha => k2 a _ (Or.inr ⟨e, he, ha, rfl⟩), fun e he a ha => k3 a _ (Or.inr ⟨e, he, ha, rfl⟩)⟩

end Verif.Pytorch
