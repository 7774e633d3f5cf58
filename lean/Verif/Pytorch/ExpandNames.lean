import Verif.Pytorch.ExpandTabu

/-!
# Names of the columns after the expansion (C63)
-/

namespace Verif.Pytorch

open Verif.Str

theorem makeNodeName_zero (c : Str) : makeNodeName c 0 = c := rfl

theorem updateNames_spec (e : Enc) (names : Names) (hh : e.cols.head? = some e.idx) (hn : e.cols.Nodup) (c : Str)
    (hc : names e.idx = some c) : ∃ f, updateNames e names = .ok f ∧
      (∀ m k : ℕ, e.cols[m]? = some k → f k = some (makeNodeName c m)) ∧ ∀ k, k ∉ e.cols → f k = names k := by
  have plain : e.cols = [e.idx] → updateNames e names = .ok names → ∃ f, updateNames e names = .ok f ∧
      (∀ m k : ℕ, e.cols[m]? = some k → f k = some (makeNodeName c m)) ∧ ∀ k, k ∉ e.cols → f k = names k := by
    intro h1 h2
    refine ⟨names, h2, ?_, fun _ _ => rfl⟩
    intro m k hk
    rw [h1] at hk
    cases m with
    | zero => simp only [List.getElem?_cons_zero, Option.some.injEq] at hk; rw [← hk, makeNodeName_zero]; exact hc
    | succ m => simp at hk
  cases e with
  | cont i => exact plain rfl rfl
  | bin i => exact plain rfl rfl
  | poiss i => exact plain rfl rfl
  | ord i a b => exact plain rfl rfl
  | cat i g cats =>
    have hg : g.headD 0 = i := by
      simp only [Enc.cols, Enc.idx] at hh
      cases g with
      | nil => simp at hh
      | cons a g => simpa using hh
    refine ⟨fun k => if k ∈ g then some (makeNodeName c (g.idxOf k)) else names k, ?_, ?_, ?_⟩
    · simp only [updateNames, hg]
      rw [show names i = some c from hc]
    · intro m k hk
      obtain ⟨hm, hk'⟩ := List.getElem?_eq_some_iff.1 hk
      have : k ∈ g := List.mem_of_getElem? hk
      simp only [if_pos this]
      congr 2
      rw [← hk']
      exact hn.idxOf_getElem m hm
    · intro k hk
      exact if_neg hk

theorem updateAllNames_spec (es : List Enc) : ∀ (names : Names) (col : ℕ → Str), (es.flatMap Enc.cols).Nodup →
    (∀ e ∈ es, e.cols.head? = some e.idx ∧ names e.idx = some (col e.idx)) →
    ∃ f, updateAllNames es names = .ok f ∧
      (∀ e ∈ es, ∀ m k : ℕ, e.cols[m]? = some k → f k = some (makeNodeName (col e.idx) m)) ∧
      ∀ k, k ∉ es.flatMap Enc.cols → f k = names k := by
  induction es with
  | nil => intro names col _ _; exact ⟨names, rfl, by simp, fun _ _ => rfl⟩
  | cons e es ih =>
    intro names col hn h
    rw [List.flatMap_cons, List.nodup_append] at hn
    obtain ⟨hn1, hn2, hn3⟩ := hn
    obtain ⟨f, f1, f2, f3⟩ := updateNames_spec e names (h e List.mem_cons_self).1 hn1 _ (h e List.mem_cons_self).2
    obtain ⟨g, g1, g2, g3⟩ := ih f col hn2 (by
      intro e' he'
      obtain ⟨a, b⟩ := h e' (List.mem_cons_of_mem _ he')
      refine ⟨a, (f3 _ ?_).trans b⟩
      intro hmem
      refine hn3 _ hmem _ ?_ rfl
      exact List.mem_flatMap.2 ⟨e', he', List.mem_of_mem_head? a⟩)
    refine ⟨g, ?_, ?_, ?_⟩
    · simp only [updateAllNames, f1, Except.bind, g1]
    · intro e' he' m k hk
      rcases List.mem_cons.1 he' with rfl | he'
      · rw [g3, f2 m k hk]
        intro hmem
        exact hn3 k (List.mem_of_getElem? hk) k hmem rfl
      · exact g2 e' he' m k hk
    · intro k hk
      rw [List.flatMap_cons, List.mem_append, not_or] at hk
      rw [g3 k hk.2, f3 k hk.1]

/-- A nonempty beginning of the digits of `m` is the number `m` without some of its last digits. -/
theorem natStr_prefix : ∀ (m : ℕ) (w v : Str), 0 < m → natStr m = w ++ v → w ≠ [] → ∃ k, 0 < k ∧ k ≤ m ∧ w = natStr k := by
  intro m
  induction m using Nat.strong_induction_on with
  | _ m ih =>
    intro w v hm h hw
    rcases Nat.lt_or_ge m 10 with hlt | hge
    · have h1 : natStr m = [m.digitChar] := Nat.toDigits_of_lt_base hlt
      rw [h1] at h
      cases w with
      | nil => exact absurd rfl hw
      | cons c w =>
        have hl := congrArg List.length h
        simp only [List.length_cons, List.length_nil, List.length_append] at hl
        have hw0 : w = [] := List.length_eq_zero_iff.1 (by omega)
        have hv0 : v = [] := List.length_eq_zero_iff.1 (by omega)
        subst hw0 hv0
        exact ⟨m, hm, le_refl m, by rw [h1, h]; rfl⟩
    · have h1 : natStr m = natStr (m / 10) ++ [(m % 10).digitChar] := Nat.toDigits_of_base_le (by decide) hge
      rcases List.eq_nil_or_concat v with rfl | ⟨v', c, rfl⟩
      · exact ⟨m, hm, le_refl m, by rw [h, List.append_nil]⟩
      · rw [h1, List.concat_eq_append, ← List.append_assoc] at h
        have h2 := List.append_inj' h rfl
        obtain ⟨k, k1, k2, k3⟩ := ih (m / 10) (by omega) w v' (by omega) h2.1 hw
        exact ⟨k, k1, by omega, k3⟩

/-- **C63**: the node names. Whatever order the set of types is iterated in, the first column of every variable keeps the name
of the variable and the `m`-th further column is called by the name of the variable followed by `m`. All names are different exactly
if the names of the variables are and no generated name is the name of a variable. -/
theorem names_layout (X : Frame) (schema : Option (List (ℕ × Alias))) (t : Notears.Tabu ℕ) (p : Prep) (hwf : X.WF)
    (hd : SchemaDict schema) (h : prepareChecked X schema t = .ok p) (col : ℕ → Str) (es : List Enc) (hes : es.Perm p.encs) :
    ∃ f, updateAllNames es (fun i => if i < X.cols then some (col i) else none) = .ok f ∧
      (∀ e ∈ p.encs, ∀ m k : ℕ, e.cols[m]? = some k → f k = some (if m = 0 then col e.idx else col e.idx ++ natStr m)) ∧
      (∀ k, (f k).isSome ↔ k < p.data.cols) ∧
      ((∀ k l, k < p.data.cols → l < p.data.cols → f k = f l → k = l) ↔
        (∀ i j, i < X.cols → j < X.cols → col i = col j → i = j) ∧
        ∀ e ∈ p.encs, ∀ m, 0 < m → m < e.cols.length → ∀ j, j < X.cols → col e.idx ++ natStr m ≠ col j) := by
  obtain ⟨-, hperm, h3, -, -⟩ := prepare_layout X schema t p hwf hd h
  have hperm' : (es.flatMap Enc.cols).Perm (List.range p.data.cols) := (hes.flatMap_right _).trans hperm
  obtain ⟨f, f1, f2, f3⟩ := updateAllNames_spec es (fun i => if i < X.cols then some (col i) else none) col
    (hperm'.nodup_iff.2 List.nodup_range) (by
      intro e he
      obtain ⟨a, b, -⟩ := h3 e (hes.mem_iff.1 he)
      exact ⟨b, if_pos a⟩)
  have hname : ∀ k, k < p.data.cols → ∃ e ∈ p.encs, ∃ m : ℕ, e.cols[m]? = some k ∧ f k = some (makeNodeName (col e.idx) m) := by
    intro k hk
    have : k ∈ p.encs.flatMap Enc.cols := hperm.mem_iff.2 (List.mem_range.2 hk)
    obtain ⟨e, he, hke⟩ := List.mem_flatMap.1 this
    obtain ⟨m, hm⟩ := List.getElem?_of_mem hke
    exact ⟨e, he, m, hm, f2 e (hes.mem_iff.2 he) m k hm⟩
  have hcols : X.cols ≤ p.data.cols := by
    have hsub : ∀ i < X.cols, i < p.data.cols := by
      intro i hi
      obtain ⟨-, -, -, hp⟩ := prepareChecked_ok h hd
      obtain ⟨hmap, -⟩ := prepare_layout X schema t p hwf hd h
      have : i ∈ p.encs.map Enc.idx := by
        have h' : p.encs.map Enc.idx = (schemaOf X schema).map Prod.fst := by rw [← hmap, List.map_map]; rfl
        rw [h']; exact hp.mem_iff.2 (List.mem_range.2 hi)
      obtain ⟨e, he, rfl⟩ := List.mem_map.1 this
      refine List.mem_range.1 (hperm.mem_iff.1 (List.mem_flatMap.2 ⟨e, he, ?_⟩))
      exact List.mem_of_mem_head? (h3 e he).2.1
    by_contra hlt
    have := hsub p.data.cols (by omega)
    omega
  refine ⟨f, f1, fun e he m k hk => f2 e (hes.mem_iff.2 he) m k hk, ?_, ?_⟩
  · intro k
    constructor
    · intro hs
      by_contra hk
      have hnot : k ∉ es.flatMap Enc.cols := fun hm => hk (List.mem_range.1 (hperm'.mem_iff.1 hm))
      rw [f3 k hnot, if_neg (by omega)] at hs
      simp at hs
    · intro hk
      obtain ⟨e, _, m, _, he⟩ := hname k hk
      rw [he]; rfl
  · have hmap := (prepare_layout X schema t p hwf hd h).1
    have hp := (prepareChecked_ok h hd).2.2.2
    have hidx : p.encs.map Enc.idx = (schemaOf X schema).map Prod.fst := by rw [← hmap, List.map_map]; rfl
    have hcol : ∀ i < X.cols, f i = some (col i) := by
      intro i hi
      have : i ∈ p.encs.map Enc.idx := by rw [hidx]; exact hp.mem_iff.2 (List.mem_range.2 hi)
      obtain ⟨e, he, rfl⟩ := List.mem_map.1 this
      have h0 := (h3 e he).2.1
      rw [List.head?_eq_getElem?] at h0
      exact f2 e (hes.mem_iff.2 he) 0 e.idx h0
    constructor
    · intro hinj
      refine ⟨?_, ?_⟩
      · intro i j hi hj hij
        exact hinj i j (by omega) (by omega) (by rw [hcol i hi, hcol j hj, hij])
      · intro e he m hm hml j hj heq
        have hk : e.cols[m]? = some e.cols[m] := List.getElem?_eq_getElem hml
        have h1 := f2 e (hes.mem_iff.2 he) m _ hk
        have hlt : e.cols[m] < p.data.cols :=
          List.mem_range.1 (hperm.mem_iff.1 (List.mem_flatMap.2 ⟨e, he, List.getElem_mem hml⟩))
        have hnew : X.cols ≤ e.cols[m] := by
          refine (h3 e he).2.2 _ ?_
          have : e.cols.tail[m - 1]? = some e.cols[m] := by
            rw [List.getElem?_tail, show m - 1 + 1 = m by omega]; exact hk
          exact List.mem_of_getElem? this
        have := hinj e.cols[m] j hlt (by omega) (by
          rw [h1, hcol j hj, ← heq, makeNodeName, if_neg (by omega)])
        omega
    rintro ⟨hinj, hgen⟩ k l hk hl hkl
    obtain ⟨e, he, a, ha, hfa⟩ := hname k hk
    obtain ⟨e', he', b, hb, hfb⟩ := hname l hl
    rw [hfa, hfb, Option.some.injEq] at hkl
    have clash : ∀ e ∈ p.encs, ∀ e' ∈ p.encs, ∀ a b : ℕ, a < e.cols.length → b < e'.cols.length → ∀ w : Str,
        col e'.idx = col e.idx ++ w → a ≠ 0 → natStr a = w ++ (if b = 0 then [] else natStr b) → e.idx = e'.idx := by
      intro e he e' he' a b ha hb w hw ha0 hab
      by_cases hw0 : w = []
      · rw [hw0, List.append_nil] at hw
        exact hinj _ _ (h3 e he).1 (h3 e' he').1 hw.symm
      · obtain ⟨k, k1, k2, k3⟩ := natStr_prefix a w _ (by omega) hab hw0
        rw [k3] at hw
        exact absurd hw.symm (hgen e he k k1 (by omega) e'.idx (h3 e' he').1)
    have hla := (List.getElem?_eq_some_iff.1 ha).1
    have hlb := (List.getElem?_eq_some_iff.1 hb).1
    have hi := (h3 e he).1
    have hj := (h3 e' he').1
    have heq : e.idx = e'.idx := by
      unfold makeNodeName at hkl
      by_cases h0 : a = 0
      · by_cases h1 : b = 0
        · rw [if_pos h0, if_pos h1] at hkl; exact hinj _ _ hi hj hkl
        · rw [if_pos h0, if_neg h1] at hkl
          exact absurd hkl.symm (hgen e' he' b (by omega) hlb e.idx hi)
      · by_cases h1 : b = 0
        · rw [if_neg h0, if_pos h1] at hkl
          exact absurd hkl (hgen e he a (by omega) hla e'.idx hj)
        · rw [if_neg h0, if_neg h1] at hkl
          rcases List.append_eq_append_iff.1 hkl with ⟨w, h2, h4⟩ | ⟨w, h2, h4⟩
          · exact clash e he e' he' a b hla hlb w h2 h0 (by rw [if_neg h1]; exact h4)
          · exact (clash e' he' e he b a hlb hla w h2 h1 (by rw [if_neg h0]; exact h4)).symm
    have hee : e = e' := by
      have hnd : (p.encs.map Enc.idx).Nodup := by
        rw [hidx]; exact hp.nodup_iff.2 List.nodup_range
      exact List.inj_on_of_nodup_map hnd he he' heq
    subst hee
    have hab : a = b := by
      unfold makeNodeName at hkl
      split_ifs at hkl with h0 h1 h1
      · rw [h0, h1]
      · exact absurd (List.append_right_eq_self.1 hkl.symm) (natStr_ne_nil _)
      · exact absurd (List.append_right_eq_self.1 hkl) (natStr_ne_nil _)
      · exact natStr_inj (List.append_cancel_left hkl)
    rw [hab, hb] at ha
    exact (Option.some.inj ha).symm

/-! ### A concrete case -/

/-- Four rows of a continuous, a categorical, a count and another categorical column. -/
def exFrame : Frame where
  cols := 4
  rows := [[7, 5, 2, 1], [8, 3, 0, 2], [9, 9, 1, 2], [7, 3, 4, 1]]

/-- The schema of `exFrame`. -/
def exSchema : Option (List (ℕ × Alias)) := some [(3, .cat), (0, .cont), (1, .cat), (2, .poiss)]

/-- The edge from the first to the second column and the third column as parent are excluded. -/
def exTabu : Notears.Tabu ℕ := ⟨some [(0, 1)], some [2], none⟩

/-- The hypotheses of `prepare_layout`, `tabu_expanded` and `names_layout` are met; two columns for the classes 1, 2 of the last
column (3 and 4) and three for the classes 3, 5, 9 of the second one (1, 5 and 6). -/
example : exFrame.WF ∧ SchemaDict exSchema ∧ TabuBelow exFrame.cols exTabu ∧ ∃ p, prepareChecked exFrame exSchema exTabu = .ok p ∧
    p.data.rows = [[7, 0, 2, 1, 0, 1, 0], [8, 1, 0, 0, 1, 0, 0], [9, 0, 1, 0, 1, 0, 1], [7, 1, 4, 1, 0, 0, 0]] ∧
    p.encs.map Enc.cols = [[3, 4], [0], [1, 5, 6], [2]] ∧
    p.tabu.edges = some [(0, 1), (3, 4), (4, 3), (0, 5), (0, 6), (1, 5), (1, 6), (5, 1), (5, 6), (6, 1), (6, 5)] ∧
    p.tabu.parents = some [2] ∧ p.tabu.children = none := by
  refine ⟨?_, ?_, ?_, ?_⟩
  · intro r hr; simp only [exFrame, List.mem_cons, List.not_mem_nil, or_false] at hr
    rcases hr with rfl | rfl | rfl | rfl <;> rfl
  · intro s hs
    cases hs
    decide
  · refine ⟨?_, ?_, ?_⟩
    · intro te hte; cases hte; decide
    · intro te hte; cases hte; decide
    · intro te hte; cases hte
  · have : ∃ p, prepareChecked exFrame exSchema exTabu = .ok p := by
      have h : (match prepareChecked exFrame exSchema exTabu with | .ok _ => true | .error _ => false) = true := by decide +kernel
      cases hp : prepareChecked exFrame exSchema exTabu with
      | ok p => exact ⟨p, rfl⟩
      | error e => rw [hp] at h; simp at h
    obtain ⟨p, hp⟩ := this
    have h : (match prepareChecked exFrame exSchema exTabu with
        | .ok p => decide (p.data.rows = [[7, 0, 2, 1, 0, 1, 0], [8, 1, 0, 0, 1, 0, 0], [9, 0, 1, 0, 1, 0, 1], [7, 1, 4, 1, 0, 0, 0]] ∧
            p.encs.map Enc.cols = [[3, 4], [0], [1, 5, 6], [2]] ∧
            p.tabu.edges = some [(0, 1), (3, 4), (4, 3), (0, 5), (0, 6), (1, 5), (1, 6), (5, 1), (5, 6), (6, 1), (6, 5)] ∧
            p.tabu.parents = some [2] ∧ p.tabu.children = none)
        | .error _ => false) = true := by decide +kernel
    rw [hp] at h
    exact ⟨p, hp, of_decide_eq_true h⟩

end Verif.Pytorch
