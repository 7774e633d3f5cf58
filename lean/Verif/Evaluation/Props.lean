import Verif.Evaluation.PropsCurve
import Verif.Network.PropsPredict

/-!
# Properties of `causalnex.evaluation`
-/

namespace Verif.Evaluation

open Verif.Network Verif.Str

section
variable {L C S : Type} [LinearOrder L] [LinearOrder S]

/-! ### Selecting columns by label -/

theorem filter_zip_map {ks : List L} (hk : ks.Nodup) {l : L} (h : l ∈ ks) (g : L → C) :
    ((ks.zip (ks.map g)).filter (·.1 = l)).map (·.2) = [g l] := by
  induction ks with
  | nil => cases h
  | cons k ks ih =>
    rw [List.nodup_cons] at hk
    rw [List.map_cons, List.zip_cons_cons, List.filter_cons]
    by_cases hkl : k = l
    · subst hkl
      simp only [decide_true, if_true, List.map_cons, List.cons.injEq, true_and]
      rw [List.map_eq_nil_iff, List.filter_eq_nil_iff]
      rintro ⟨a, b⟩ hab
      have := (List.of_mem_zip hab).1
      simp only [decide_eq_true_eq]
      rintro rfl
      exact hk.1 this
    · simp only [hkl, decide_false, Bool.false_eq_true, if_false]
      exact ih hk.2 (List.mem_of_ne_of_mem (Ne.symm hkl) h)

theorem filter_eq_singleton {ks : List L} (hk : ks.Nodup) {l : L} (h : l ∈ ks) : ks.filter (· = l) = [l] := by
  induction ks with
  | nil => cases h
  | cons k ks ih =>
    rw [List.nodup_cons] at hk
    rw [List.filter_cons]
    by_cases hkl : k = l
    · subst hkl
      simp only [decide_true, if_true, List.cons.injEq, true_and]
      rw [List.filter_eq_nil_iff]
      intro a ha
      simp only [decide_eq_true_eq]
      rintro rfl
      exact hk.1 ha
    · simp only [hkl, decide_false, Bool.false_eq_true, if_false]
      exact ih hk.2 (List.mem_of_ne_of_mem (Ne.symm hkl) h)

theorem flatMap_singleton' {α β : Type} {l : List α} {f : α → List β} {g : α → β} (h : ∀ a ∈ l, f a = [g a]) :
    l.flatMap f = l.map g := by
  induction l with
  | nil => rfl
  | cons a l ih =>
    rw [List.flatMap_cons, h a List.mem_cons_self, ih fun b hb => h b (List.mem_cons_of_mem _ hb), List.map_cons,
      List.singleton_append]

theorem select_eq {R : Type} {ks ls : List L} (hk : ks.Nodup) (hl : ∀ l ∈ ls, l ∈ ks) (rows : List R)
    (g : R → L → C) :
    Frame.select ⟨ks, rows.map fun r => ks.map (g r)⟩ ls = ⟨ls, rows.map fun r => ls.map (g r)⟩ := by
  unfold Frame.select
  simp only [List.map_map, Frame.mk.injEq]
  constructor
  · refine (flatMap_singleton' (g := id) fun l h => filter_eq_singleton hk (hl l h)).trans (List.map_id _)
  · refine List.map_congr_left fun r _ => ?_
    exact flatMap_singleton' fun l h => filter_zip_map hk (hl l h) (g r)

/-- A strictly increasing list is what sorting makes of any of its permutations. -/
theorem sort_perm {l l' : List L} (h : l'.Perm l) (hs : l.Pairwise (· < ·)) : l'.insertionSort (· ≤ ·) = l := by
  refine List.Perm.eq_of_pairwise (le := (· ≤ ·)) ?_ (List.pairwise_insertionSort _ _) (hs.imp le_of_lt)
    ((List.perm_insertionSort _ _).trans h)
  intro a b _ _ h1 h2
  exact le_antisymm h1 h2

/-! ### The ground truth -/

theorem addMissing_eq (column : List (Option S)) (order : List S) : ∀ ks : List S, ks.Nodup →
    (∀ s, some s ∈ column → s ∈ ks) → ∃ ks' : List S, ks'.Nodup ∧ (∀ s, s ∈ ks' ↔ s ∈ ks ∨ s ∈ order) ∧
      addMissing order ⟨ks, column.map fun c => ks.map fun l => if c = some l then 1 else 0⟩ =
        ⟨ks', column.map fun c => ks'.map fun l => if c = some l then 1 else 0⟩ := by
  induction order with
  | nil => intro ks hn _; exact ⟨ks, hn, by simp, rfl⟩
  | cons d ds ih =>
    intro ks hn hc
    rw [addMissing]
    by_cases hd : d ∈ ks
    · simp only [hd, if_true]
      obtain ⟨ks', h1, h2, h3⟩ := ih ks hn hc
      refine ⟨ks', h1, fun s => ?_, h3⟩
      rw [h2, List.mem_cons]
      constructor
      · rintro (h | h)
        · exact Or.inl h
        · exact Or.inr (Or.inr h)
      · rintro (h | rfl | h)
        · exact Or.inl h
        · exact Or.inl hd
        · exact Or.inr h
    · simp only [hd, if_false]
      have hn' : (ks ++ [d]).Nodup := by
        rw [List.nodup_append]
        refine ⟨hn, List.nodup_singleton _, ?_⟩
        intro a ha b hb
        rw [List.mem_singleton.1 hb]
        rintro rfl
        exact hd ha
      obtain ⟨ks', h1, h2, h3⟩ := ih (ks ++ [d]) hn' fun s hs => List.mem_append_left _ (hc s hs)
      refine ⟨ks', h1, fun s => ?_, ?_⟩
      · rw [h2, List.mem_append, List.mem_singleton, List.mem_cons, or_assoc]
      · rw [← h3]
        congr 2
        rw [List.map_map]
        refine List.map_congr_left fun c hcc => ?_
        simp only [Function.comp_apply, List.map_append, List.map_cons, List.map_nil]
        rw [if_neg]
        rintro rfl
        exact hd (hc d hcc)

theorem groundTruth_general (order : List S) (column : List (Option S)) {all : List S}
    (ha : all.Pairwise (· < ·)) (hm : ∀ s, s ∈ all ↔ s ∈ order ∨ some s ∈ column) :
    groundTruth order column = ⟨all, column.map fun c => all.map fun s => if c = some s then 1 else 0⟩ := by
  have hlev : ∀ s, s ∈ (column.filterMap id).dedup.insertionSort (· ≤ ·) ↔ some s ∈ column := by
    intro s
    rw [(List.perm_insertionSort _ _).mem_iff, List.mem_dedup, List.mem_filterMap]
    simp
  obtain ⟨ks, h1, h2, h3⟩ := addMissing_eq column order ((column.filterMap id).dedup.insertionSort (· ≤ ·))
    ((List.perm_insertionSort _ _).nodup_iff.2 (List.nodup_dedup _)) (fun s hs => (hlev s).2 hs)
  unfold groundTruth Frame.sorted getDummies
  simp only
  rw [h3]
  have hsort : ks.insertionSort (· ≤ ·) = all := by
    refine sort_perm ?_ ha
    rw [List.perm_ext_iff_of_nodup h1 (ha.imp ne_of_lt)]
    intro s
    rw [h2, hlev, hm, or_comm]
  rw [select_eq h1 (fun l hl => (List.perm_insertionSort _ _).mem_iff.1 hl) column
    (fun c l => if c = some l then 1 else 0), hsort]

/-- **C33**, first part: the matrix of the true states has one column for each state, and one 1 in each row,
in the column of the true state. -/
theorem groundTruth_correct {order states : List S} (ho : order.Perm states) (hs : states.Pairwise (· < ·))
    {column : List (Option S)} (hc : ∀ c ∈ column, ∃ s ∈ states, c = some s) :
    groundTruth order column = ⟨states, column.map fun c => states.map fun s => if c = some s then 1 else 0⟩ ∧
    ∀ row ∈ (groundTruth order column).rows, row.sum = 1 := by
  have h := groundTruth_general order column hs fun s => by
    rw [← ho.mem_iff]
    constructor
    · exact Or.inl
    · rintro (h | h)
      · exact h
      · obtain ⟨s', hs', h'⟩ := hc _ h
        cases h'
        exact ho.mem_iff.2 hs'
  refine ⟨h, ?_⟩
  rw [h]
  intro row hrow
  obtain ⟨c, hcc, rfl⟩ := List.mem_map.1 hrow
  obtain ⟨s, hs', rfl⟩ := hc c hcc
  have hn : states.Nodup := hs.imp ne_of_lt
  clear h ho hc hrow hcc hs
  induction states with
  | nil => cases hs'
  | cons t states ih =>
    rw [List.nodup_cons] at hn
    rw [List.map_cons, List.sum_cons]
    by_cases hts : t = s
    · subst hts
      have : (states.map fun s => if some t = some s then 1 else 0) = states.map fun _ => 0 :=
        List.map_congr_left fun u hu => if_neg fun h => hn.1 (by cases h; exact hu)
      rw [this]
      simp
    · rw [if_neg (by simpa using Ne.symm hts), ih (List.mem_of_ne_of_mem (Ne.symm hts) hs') hn.2]

/-! ### The predicted probabilities -/

theorem lstrip_fmtName (str : S → Str) (node : Str) (s : S) :
    lstrip (fmtName str node s) (node ++ ['_']) = label str node s := by
  unfold lstrip fmtName label
  have hf : (fun c : Char => decide (c ∈ node ++ ['_'])) = fun c => decide (c ∈ node ∨ c = '_') := by
    funext c
    simp
  rw [hf]
  have h1 : ∀ n' : Str, (∀ c ∈ n', c ∈ node) → (n' ++ '_' :: str s).dropWhile (fun c => decide (c ∈ node ∨ c = '_')) =
      (str s).dropWhile fun c => decide (c ∈ node ∨ c = '_') := by
    intro n' hn'
    induction n' with
    | nil => rw [List.nil_append, List.dropWhile_cons, if_pos (by simp)]
    | cons c n' ih =>
      rw [List.cons_append, List.dropWhile_cons, if_pos (by simp [hn' c List.mem_cons_self]),
        ih fun d hd => hn' d (List.mem_cons_of_mem _ hd)]
  exact h1 node fun c hc => hc

theorem renamed_eq (str : S → Str) (node : Str) (order : List S) (rows : List (Str → Option S)) :
    renamed node ⟨order.map (fmtName str node), rows⟩ =
      Frame.sorted ⟨order.map (label str node), rows.map fun r => order.map fun s => r (fmtName str node s)⟩ := by
  unfold renamed
  simp only [List.map_map]
  congr 2
  exact List.map_congr_left fun s _ => lstrip_fmtName str node s

/-- Selecting by label, for the columns of the states `order`. -/
theorem filter_zip_states (order : List S) (key : S → L) (f : S → C) (l : L) :
    (((order.map key).zip (order.map f)).filter (·.1 = l)).map (·.2) = (order.filter (key · = l)).map f := by
  rw [List.zip_map', List.filter_map, List.map_map]
  rfl

theorem label_nodup {order states : List S} {key : S → L} (ho : order.Perm states)
    (hk : states.Pairwise fun s s' => key s < key s') : (order.map key).Nodup := by
  rw [(ho.map key).nodup_iff]
  exact List.pairwise_map.2 (hk.imp ne_of_lt)

theorem aligned_of_sorted {order states : List S} {key : S → L} (ho : order.Perm states) (hn : states.Nodup)
    (hk : states.Pairwise fun s s' => key s < key s') (rows : List (S → C)) :
    Frame.sorted ⟨order.map key, rows.map fun r => order.map r⟩ =
      ⟨states.map key, rows.map fun r => states.map r⟩ := by
  have hnd := label_nodup ho hk
  have hsort : (order.map key).insertionSort (· ≤ ·) = states.map key :=
    sort_perm (ho.map _) (List.pairwise_map.2 hk)
  unfold Frame.sorted Frame.select
  simp only [List.map_map, hsort, Frame.mk.injEq]
  constructor
  · refine (flatMap_singleton' (g := id) fun l h => filter_eq_singleton hnd ?_).trans (List.map_id _)
    exact (ho.map key).mem_iff.2 h
  refine List.map_congr_left fun r _ => ?_
  simp only [Function.comp_apply]
  rw [List.flatMap_map]
  refine flatMap_singleton' fun s hs => ?_
  have hso := ho.mem_iff.2 hs
  rw [filter_zip_states]
  have hfil : order.filter (key · = key s) = [s] := by
    have hno := ho.nodup_iff.2 hn
    rw [← filter_eq_singleton hno hso]
    refine List.filter_congr fun u hu => ?_
    have := List.inj_on_of_nodup_map hnd hu hso
    by_cases h : u = s
    · simp [h]
    · simpa [h] using fun h' => h (this h')
  rw [hfil]
  rfl

theorem map_inj_on' {α β : Type} {f : α → β} {p : α → Prop} (hf : ∀ x, p x → ∀ y, p y → f x = f y → x = y) :
    ∀ {l l' : List α}, (∀ x ∈ l, p x) → (∀ x ∈ l', p x) → l.map f = l'.map f → l = l'
  | [], [], _, _, _ => rfl
  | [], _ :: _, _, _, h => by simp at h
  | _ :: _, [], _, _, h => by simp at h
  | a :: l, b :: l', h1, h2, h => by
    simp only [List.map_cons, List.cons.injEq] at h
    rw [hf a (h1 a List.mem_cons_self) b (h2 b List.mem_cons_self) h.1,
      map_inj_on' hf (fun x hx => h1 x (List.mem_cons_of_mem _ hx)) (fun x hx => h2 x (List.mem_cons_of_mem _ hx)) h.2]

theorem sorted_of_aligned {order states : List S} {key : S → L} (ho : order.Perm states) (hn : states.Nodup)
    {f : S → C} (hf : ∀ s ∈ states, ∀ s' ∈ states, f s = f s' → s = s')
    (h : (Frame.sorted ⟨order.map key, [order.map f]⟩).rows = [states.map f]) :
    states.Pairwise fun s s' => key s < key s' := by
  unfold Frame.sorted Frame.select at h
  simp only [List.map_cons, List.map_nil, List.cons.injEq, and_true, filter_zip_states] at h
  rw [← List.map_flatMap] at h
  have h4 : (((order.map key).insertionSort (· ≤ ·)).flatMap fun l => order.filter (key · = l)) = states := by
    refine map_inj_on' (p := (· ∈ states)) (fun x hx y hy => hf x hx y hy) ?_ (fun x hx => hx) h
    intro x hx
    obtain ⟨l, -, hx⟩ := List.mem_flatMap.1 hx
    exact ho.mem_iff.1 (List.mem_filter.1 hx).1
  -- the labels are distinct
  have hnd : ((order.map key).insertionSort (· ≤ ·)).Nodup := by
    have h5 := hn
    rw [← h4, List.nodup_flatMap] at h5
    refine h5.2.imp_of_mem ?_
    intro a b ha hb hdis hab
    subst hab
    have := (List.perm_insertionSort _ _).mem_iff.1 ha
    obtain ⟨s, hs, rfl⟩ := List.mem_map.1 this
    have hmem : s ∈ order.filter (key · = key s) := List.mem_filter.2 ⟨hs, by simp⟩
    exact hdis hmem hmem
  have hsorted : ((order.map key).insertionSort (· ≤ ·)).Pairwise (· < ·) :=
    ((List.pairwise_insertionSort _ _).and hnd).imp fun h => lt_of_le_of_ne h.1 h.2
  have hblock : states.map key = (order.map key).insertionSort (· ≤ ·) := by
    conv_lhs => rw [← h4]
    rw [List.map_flatMap]
    have hnd' : (order.map key).Nodup := (List.perm_insertionSort _ _).nodup_iff.1 hnd
    refine (flatMap_singleton' (g := id) ?_).trans (List.map_id _)
    intro l hl
    have hl' := (List.perm_insertionSort _ _).mem_iff.1 hl
    have := filter_eq_singleton hnd' hl'
    rw [List.filter_map] at this
    exact this
  rw [← hblock] at hsorted
  exact List.pairwise_map.1 hsorted

/-- **C33**, second part: the columns of the predicted probabilities are in the order of the states exactly if the
labels are. -/
theorem renamed_aligned_iff (str : S → Str) (node : Str) {order states : List S} (ho : order.Perm states)
    (hn : states.Nodup)
    (hstr : ∀ s ∈ states, ∀ s' ∈ states, str s = str s' → s = s') :
    (∀ rows : List (Str → Option S), (renamed node ⟨order.map (fmtName str node), rows⟩).rows =
      rows.map fun r => states.map fun s => r (fmtName str node s)) ↔
    states.Pairwise fun s s' => label str node s < label str node s' := by
  constructor
  · intro h
    have hinj : ∀ s ∈ states, ∀ s' ∈ states, fmtName str node s = fmtName str node s' → s = s' := by
      intro s hs s' hs' he
      unfold fmtName at he
      exact hstr s hs s' hs' (List.cons.inj (List.append_cancel_left he)).2
    -- a row that holds the state of each column
    let r : Str → Option S := fun x => states.find? fun s => fmtName str node s = x
    have hr : ∀ s ∈ states, r (fmtName str node s) = some s := by
      intro s hs
      cases hf : r (fmtName str node s) with
      | none =>
        have := List.find?_eq_none.1 hf s hs
        simp at this
      | some s' =>
        have h1 := List.find?_some hf
        have h2 := List.mem_of_find?_eq_some hf
        simp only [decide_eq_true_eq] at h1
        rw [hinj s' h2 s hs h1]
    have h1 := h [r]
    rw [renamed_eq] at h1
    refine sorted_of_aligned (f := fun s => r (fmtName str node s)) ho hn ?_ h1
    intro s hs s' hs' he
    rw [hr s hs, hr s' hs'] at he
    exact Option.some.inj he
  · intro hk rows
    rw [renamed_eq]
    have := aligned_of_sorted ho hn hk (rows.map fun r s => r (fmtName str node s))
    simp only [List.map_map, Function.comp_def] at this
    rw [this]

/-- A simple sufficient condition: the states are ordered like their strings, and no string of a state begins with
an underscore or with a character of the name of the node. -/
theorem labels_increasing (str : S → Str) (node : Str) {states : List S}
    (h : states.Pairwise fun s s' => str s < str s')
    (hc : ∀ s ∈ states, ∀ c, (str s).head? = some c → c ∉ node ∧ c ≠ '_') :
    states.Pairwise fun s s' => label str node s < label str node s' := by
  have hl : ∀ s ∈ states, label str node s = str s := by
    intro s hs
    unfold label
    cases he : str s with
    | nil => rfl
    | cons c x =>
      rw [List.dropWhile_cons, if_neg]
      have := hc s hs c (by rw [he]; rfl)
      simp [this]
  refine h.imp_of_mem fun {a b} ha hb hab => ?_
  rwa [hl a ha, hl b hb]

end

section
variable {S K : Type} [LinearOrder S] [Field K] [LinearOrder K]

theorem mapM_some {α β : Type} {f : α → Option β} {g : α → β} {l : List α} (h : ∀ a ∈ l, f a = some (g a)) :
    l.mapM f = some (l.map g) := by
  induction l with
  | nil => rfl
  | cons a l ih =>
    rw [List.mapM_cons, h a List.mem_cons_self, ih fun b hb => h b (List.mem_cons_of_mem _ hb)]
    rfl

theorem positives_rows (v : Str) (states : List S) (rows : List (Str → Option S)) (P : List (List K))
    (hl : rows.length = P.length) (hp : ∀ p ∈ P, p.length = states.length) :
    positives (rows.flatMap fun r => states.map fun s => if r v = some s then 1 else 0) P.flatten =
      scoresOf v states rows P true ∧
    negatives (rows.flatMap fun r => states.map fun s => if r v = some s then 1 else 0) P.flatten =
      scoresOf v states rows P false := by
  induction rows generalizing P with
  | nil => exact ⟨rfl, rfl⟩
  | cons r rows ih =>
    cases P with
    | nil => cases hl
    | cons p P =>
      obtain ⟨h1, h2⟩ := ih P (by simpa using hl) fun q hq => hp q (List.mem_cons_of_mem _ hq)
      have hlen := hp p List.mem_cons_self
      unfold positives negatives scoresOf at *
      rw [List.flatMap_cons, List.flatten_cons, List.zip_append (by simp [hlen]), List.zip_cons_cons,
        List.flatMap_cons, List.flatMap_cons, List.filter_append, List.filter_append, List.map_append, List.map_append,
        h1, h2, List.zip_map_left, List.filter_map, List.filter_map, List.map_map, List.map_map]
      constructor <;> congr 1
      · have : ((fun x : ℕ × K => decide (x.1 = 1)) ∘ Prod.map (fun s => if r v = some s then 1 else 0) id) =
            fun e : S × K => decide (decide (r v = some e.1) = true) := by
          funext e
          by_cases h : r v = some e.1 <;> simp [h]
        rw [this]
        rfl
      · have : ((fun x : ℕ × K => decide (x.1 ≠ 1)) ∘ Prod.map (fun s => if r v = some s then 1 else 0) id) =
            fun e : S × K => decide (decide (r v = some e.1) = false) := by
          funext e
          by_cases h : r v = some e.1 <;> simp [h]
        rw [this]
        rfl

theorem fitted_states {int : ℕ → S} (hint : Function.Injective int) {ns : List Str} {E : List (Str × Str)}
    (hE : IsStructure ns E)
    {net net' : Net Str S K} (hr : Reach int ns E net) (hne : ∀ v ∈ net.nodes, statesOf net v ≠ [])
    {h₀ h₁ : Heap Str S} {ref₀ : ℕ} {a : FitArgs K}
    (hf : fitCpds int net h₀ ref₀ a = (net', h₁, .ok ())) {tables : List (Str × Table Str S K)}
    (hc : cpds net' = .ok tables) {v : Str} {t : Table Str S K} (ht : (v, t) ∈ tables) :
    (statesOf net v).Pairwise (· < ·) ∧ ∃ states, net'.states = some states ∧ v ∈ states.map Prod.fst := by
  have hw := hr.wf hE
  obtain ⟨states, df₀, ps₀, hst, hdf₀, -, -, hnet⟩ := fitCpds_ok hw hf
  obtain ⟨hn, he, hso, tables', hc', hkeys, -⟩ := fit_cpds_correct hint hE hr hne hdf₀ hf
  rw [hc] at hc'
  cases hc'
  have hv : v ∈ net.nodes := hkeys ▸ List.mem_map_of_mem ht
  constructor
  · rw [statesOf_eq hst]
    exact keysOf_sorted (hw.encWF hst) v
  · exact ⟨states, by rw [hnet]; exact hst, hw.keys states hst v hv⟩

theorem flatMap_ne_nil {α β : Type} {l : List α} {f : α → List β} {a : α} (ha : a ∈ l) (hf : f a ≠ []) :
    l.flatMap f ≠ [] := by
  intro h
  rw [List.flatMap_eq_nil_iff] at h
  exact hf (h a ha)

variable [IsStrictOrderedRing K]

/-- **C33, C34, C74** for a fitted network and complete data, under the condition that the labels are ordered like the
states (without it the columns are not aligned, `renamed_aligned_iff`): `roc_auc` returns the curve and the area for
the probabilities of the true states against those of the other states. -/
theorem rocAuc_correct_partial {int : ℕ → S} (hint : Function.Injective int) {ns : List Str}
    {E : List (Str × Str)} (hE : IsStructure ns E) {net net' : Net Str S K} (hr : Reach int ns E net)
    (hne : ∀ v ∈ net.nodes, statesOf net v ≠ []) {h₀ h₁ : Heap Str S} {ref₀ : ℕ} {a : FitArgs K}
    (hf : fitCpds int net h₀ ref₀ a = (net', h₁, .ok ()))
    {tables : List (Str × Table Str S K)} (hc : cpds net' = .ok tables) {v : Str} {t : Table Str S K}
    (ht : (v, t) ∈ tables) {h : Heap Str S} {ref : ℕ} {df : DF Str S} (hdf : h[ref]? = some df)
    (hcols : ∀ p ∈ v :: t.parents, p ∈ df.cols)
    (hk : ∀ r ∈ df.rows, ∀ p ∈ v :: t.parents, ∃ s ∈ statesOf net p, r p = some s)
    (oracle : DF Str S → DF Str S) (pattern : Str → Except Err (Str → Bool)) {num : K → S} {toNum : S → Option K}
    (hnum : ∀ x, toNum (num x) = some x) (str : S → Str)
    {order order' : List S} (hord : order.Perm (statesOf net v)) (hord' : order'.Perm (statesOf net v))
    (hcoll : ∀ s ∈ statesOf net v, fmtName str v s ∉ t.parents)
    (hlab : (statesOf net v).Pairwise fun s s' => label str v s < label str v s')
    (hrows : df.rows ≠ []) (htwo : 2 ≤ (statesOf net v).length) :
    ∃ (h' : Heap Str S) (P : List (List K)) (pts : List (K × K)), h <+: h' ∧
      List.Forall₂ (fun r p => ∃ ps, t.parents.map r = ps.map some ∧
        List.Forall₂ (fun s x => t.entry s ps = some x) (statesOf net v) p) df.rows P ∧
      rocAuc oracle pattern int num toNum str order order' net' h ref v = (h', .ok
        (pts.map (fun p => (some p.1, some p.2)),
          some (rankProbability (scoresOf v (statesOf net v) df.rows P true)
            (scoresOf v (statesOf net v) df.rows P false)))) ∧
      pts.head? = some (0, 0) ∧ pts.getLast? = some (1, 1) ∧ pts.Pairwise (fun p q => p.1 ≤ q.1 ∧ p.2 ≤ q.2) ∧
      0 ≤ rankProbability (scoresOf v (statesOf net v) df.rows P true)
            (scoresOf v (statesOf net v) df.rows P false) ∧
      rankProbability (scoresOf v (statesOf net v) df.rows P true)
            (scoresOf v (statesOf net v) df.rows P false) ≤ 1 := by
  obtain ⟨hsorted, states, hst, hvs⟩ := fitted_states hint hE hr hne hf hc ht
  have hnd : (statesOf net v).Nodup := hsorted.imp ne_of_lt
  have hfmt : ∀ s ∈ statesOf net v, ∀ s' ∈ statesOf net v, fmtName str v s = fmtName str v s' → s = s' := by
    intro s hs s' hs' he
    have hl : label str v s = label str v s' := by rw [← lstrip_fmtName, he, lstrip_fmtName]
    have hn : ((statesOf net v).map (label str v)).Nodup := List.pairwise_map.2 (hlab.imp ne_of_lt)
    exact List.inj_on_of_nodup_map hn hs hs' hl
  obtain ⟨h', out, hpred, hpre, hcolsout, hrowsout⟩ := predict_probability_column_partial hint hE hr hne hf hc ht hdf
    (fun p hp => hcols p (List.mem_cons_of_mem _ hp)) (fun r hr p hp => hk r hr p (List.mem_cons_of_mem _ hp))
    oracle pattern num (fmtName str) order' hord' hfmt hcoll
  -- the probabilities
  obtain ⟨P, hP1, hP2⟩ : ∃ P : List (List K),
      List.Forall₂ (fun r p => ∃ ps, t.parents.map r = ps.map some ∧
        List.Forall₂ (fun s x => t.entry s ps = some x) (statesOf net v) p) df.rows P ∧
      List.Forall₂ (fun r' p => (statesOf net v).map (fun s => r' (fmtName str v s)) =
        p.map fun x => some (num x)) out.rows P := by
    generalize df.rows = rows at hrowsout
    generalize out.rows = rows' at hrowsout
    induction hrowsout with
    | nil => exact ⟨[], .nil, .nil⟩
    | @cons r r' rows rows' hh _ ih =>
      obtain ⟨P, hP1, hP2⟩ := ih
      obtain ⟨ps, hps, hx⟩ := hh
      obtain ⟨p, hp1, hp2⟩ : ∃ p : List K, List.Forall₂ (fun s x => t.entry s ps = some x) (statesOf net v) p ∧
          (statesOf net v).map (fun s => r' (fmtName str v s)) = p.map fun x => some (num x) := by
        clear hP1 hP2
        generalize statesOf net v = sts at hx
        induction sts with
        | nil => exact ⟨[], .nil, rfl⟩
        | cons s sts ih =>
          obtain ⟨p, h1, h2⟩ := ih fun s hs => hx s (List.mem_cons_of_mem _ hs)
          obtain ⟨x, hx1, hx2⟩ := hx s List.mem_cons_self
          exact ⟨x :: p, .cons hx1 h1, by rw [List.map_cons, List.map_cons, hx2, h2]⟩
      exact ⟨p :: P, .cons ⟨ps, hps, hp1⟩ hP1, .cons hp2 hP2⟩
  have hlenP : ∀ p ∈ P, p.length = (statesOf net v).length := by
    intro p hp
    obtain ⟨r, hr, ps, -, h2⟩ : ∃ r ∈ df.rows, ∃ ps, t.parents.map r = ps.map some ∧
        List.Forall₂ (fun s x => t.entry s ps = some x) (statesOf net v) p := by
      obtain ⟨i, hi, rfl⟩ := List.getElem_of_mem hp
      have := List.forall₂_iff_get.1 hP1
      obtain ⟨ps, h⟩ := this.2 i (by rw [this.1]; exact hi) hi
      exact ⟨_, List.getElem_mem (by rw [this.1]; exact hi), ps, h⟩
    exact h2.length_eq.symm
  obtain ⟨hpos, hneg⟩ := positives_rows v (statesOf net v) df.rows P hP1.length_eq hlenP
  -- the frames
  have hgt := (groundTruth_correct hord hsorted (column := df.rows.map fun r => r v) (by
    intro c hc
    obtain ⟨r, hr, rfl⟩ := List.mem_map.1 hc
    exact hk r hr v List.mem_cons_self)).1
  have hren := (renamed_aligned_iff str v hord' hnd fun s hs s' hs' he =>
    hfmt s hs s' hs' (by unfold fmtName; rw [he])).2 hlab out.rows
  have hout : out = ⟨order'.map (fmtName str v), out.rows⟩ := by
    rw [← hcolsout]
  rw [← hout] at hren
  have hpr : (renamed v out).rows.flatten = P.flatten.map fun x => some (num x) := by
    rw [hren, List.map_flatten]
    congr 1
    clear hren hout hcolsout hpred hrowsout hP1 hlenP hpos hneg
    generalize out.rows = rows' at hP2
    induction hP2 with
    | nil => rfl
    | cons h _ ih => rw [List.map_cons, List.map_cons, h, ih]
  have hscores : ((renamed v out).rows.flatten.mapM fun c => c.bind toNum) = some P.flatten := by
    rw [hpr]
    clear hpr hren hP1 hP2 hlenP hpos hneg
    generalize P.flatten = l
    induction l with
    | nil => rfl
    | cons x l ih => rw [List.map_cons, List.mapM_cons, ih]; simp [hnum]
  have hy : (groundTruth order (df.rows.map fun r => r v)).rows.flatten =
      df.rows.flatMap fun r => (statesOf net v).map fun s => if r v = some s then 1 else 0 := by
    rw [hgt, List.map_map, List.flatMap_def]
    rfl
  have hlen : (df.rows.flatMap fun r => (statesOf net v).map fun s => if r v = some s then 1 else 0).length =
      P.flatten.length := by
    clear hgt hren hpr hscores hy hpos hneg hrows hk hdf hP2
    generalize df.rows = rows at hP1
    induction hP1 with
    | nil => rfl
    | @cons r p rows P h _ ih =>
      rw [List.flatMap_cons, List.flatten_cons, List.length_append, List.length_append, List.length_map,
        hlenP p List.mem_cons_self, ih fun q hq => hlenP q (List.mem_cons_of_mem _ hq)]
  obtain ⟨r₀, hr₀⟩ := List.exists_mem_of_ne_nil _ hrows
  obtain ⟨p₀, hz⟩ : ∃ p₀, (r₀, p₀) ∈ df.rows.zip P := by
    obtain ⟨i, hi, rfl⟩ := List.getElem_of_mem hr₀
    refine ⟨P[i]'(by rw [← hP1.length_eq]; exact hi), ?_⟩
    rw [← List.getElem_zip (h := by rw [List.length_zip, ← hP1.length_eq, min_self]; exact hi)]
    exact List.getElem_mem _
  obtain ⟨s₀, hs₀, hrs₀⟩ := hk r₀ hr₀ v List.mem_cons_self
  have hp₀ : p₀.length = (statesOf net v).length := hlenP p₀ (List.of_mem_zip hz).2
  have hex : ∀ b, (∃ s ∈ statesOf net v, decide (r₀ v = some s) = b) →
      scoresOf v (statesOf net v) df.rows P b ≠ [] := by
    rintro b ⟨s, hs, hb⟩
    unfold scoresOf
    refine flatMap_ne_nil hz ?_
    obtain ⟨i, hi, rfl⟩ := List.getElem_of_mem hs
    simp only [ne_eq, List.map_eq_nil_iff, List.filter_eq_nil_iff, not_forall]
    refine ⟨((statesOf net v)[i], p₀[i]'(by rw [hp₀]; exact hi)), ?_, by simpa using hb⟩
    rw [← List.getElem_zip (h := by rw [List.length_zip, hp₀, min_self]; exact hi)]
    exact List.getElem_mem _
  have hposne := hex true ⟨s₀, hs₀, by simp [hrs₀]⟩
  have hnegne := hex false (by
    have : ∃ s ∈ statesOf net v, s ≠ s₀ := by
      by_contra hcon
      push Not at hcon
      have : (statesOf net v).length ≤ 1 := by
        have hsub : (statesOf net v).Subperm [s₀] := hnd.subperm fun s hs => by
          rw [hcon s hs]; exact List.mem_singleton_self _
        exact hsub.length_le
      omega
    obtain ⟨s, hs, hne'⟩ := this
    exact ⟨s, hs, by simp [hrs₀, Ne.symm hne']⟩)
  rw [← hpos] at hposne
  rw [← hneg] at hnegne
  obtain ⟨pts, hroc, hhead, hlast, hmono, -, hauc, hb⟩ := rocCurve_correct hlen hposne hnegne
  rw [hpos, hneg] at hauc hb
  refine ⟨h', P, pts, hpre, hP1, ?_, hhead, hlast, hmono, hb⟩
  unfold rocAuc rocFrames
  rw [hdf, hst]
  simp only
  rw [if_neg (by simp only [not_or, not_not]; exact ⟨hcols v List.mem_cons_self, hvs⟩), hpred]
  simp only
  rw [hscores]
  simp only [bind, Except.bind, pure, Except.pure]
  rw [hy, hroc]
  simp only
  rw [hauc]

/-- **C34**, for every call of `roc_auc` that returns, whatever the network, the data and the labels: if the area is a number, it lies
between 0 and 1 and both rates are nondecreasing from 0 to 1. -/
theorem rocAuc_range (oracle : DF Str S → DF Str S) (pattern : Str → Except Err (Str → Bool)) (int : ℕ → S) (num : K → S)
    (toNum : S → Option K) (str : S → Str) (order order' : List S) (net : Net Str S K) (h : Heap Str S)
    (ref : ℕ) (node : Str) {h' : Heap Str S} {roc : List (Option K × Option K)} {a : K}
    (hr : rocAuc oracle pattern int num toNum str order order' net h ref node = (h', .ok (roc, some a))) :
    0 ≤ a ∧ a ≤ 1 ∧ ∃ pts : List (K × K), roc = pts.map (fun p => (some p.1, some p.2)) ∧
      pts.head? = some (0, 0) ∧ pts.getLast? = some (1, 1) ∧
      pts.Pairwise (fun p q => p.1 ≤ q.1 ∧ p.2 ≤ q.2) := by
  unfold rocAuc at hr
  split at hr
  · cases hr
  · rename_i gt pr _
    rw [Prod.mk.injEq] at hr
    obtain ⟨-, hr⟩ := hr
    split at hr
    · cases hr
    · rename_i scores _
      cases hc : rocCurve gt.rows.flatten scores with
      | error e => rw [hc] at hr; cases hr
      | ok pts =>
        rw [hc] at hr
        simp only [bind, Except.bind, pure, Except.pure] at hr
        have hne : ¬ (gt.rows.flatten.length ≠ scores.length ∨ gt.rows.flatten = []) := by
          intro hb
          unfold rocCurve at hc
          rw [if_pos hb] at hc
          cases hc
        push Not at hne
        by_cases hpn : positives gt.rows.flatten scores ≠ [] ∧ negatives gt.rows.flatten scores ≠ []
        · obtain ⟨l, k1, k2, k3, k4, -, k5, k6, k7⟩ := rocCurve_correct hne.1 hpn.1 hpn.2
          rw [hc] at k1
          cases k1
          rw [k5] at hr
          cases hr
          exact ⟨k6, k7, l, rfl, k2, k3, k4⟩
        · have hn : positives gt.rows.flatten scores = [] ∨ negatives gt.rows.flatten scores = [] := by
            by_contra hb
            push Not at hb
            exact hpn hb
          obtain ⟨l, k1, k2⟩ := auc_nan hne.1 hne.2 hn
          rw [hc] at k1
          cases k1
          rw [k2] at hr
          cases hr

/-! ### The classification report -/

theorem get?_append_left {β : Type} {d l : List (Str × β)} {k : Str} (h : k ∈ d.map (·.1)) :
    Dict.get? (d ++ l) k = Dict.get? d k := by
  induction d with
  | nil => cases h
  | cons e d ih =>
    obtain ⟨k', x⟩ := e
    rw [List.cons_append, Dict.get?, Dict.get?]
    by_cases hk : k' = k
    · rw [if_pos hk, if_pos hk]
    · rw [if_neg hk, if_neg hk]
      refine ih ?_
      rw [List.map_cons, List.mem_cons] at h
      exact h.resolve_left (Ne.symm hk)

theorem update_append {β : Type} {d l : List (Str × β)} (hn : (l.map (·.1)).Nodup)
    (h : ∀ k ∈ l.map (·.1), k ∉ d.map (·.1)) : Dict.update d l = d ++ l := by
  induction l generalizing d with
  | nil => simp [Dict.update]
  | cons e l ih =>
    rw [List.map_cons, List.nodup_cons] at hn
    have hset : Dict.set d e.1 e.2 = d ++ [e] := by
      have h1 := h e.1 List.mem_cons_self
      clear h ih
      induction d with
      | nil => rfl
      | cons q d ih =>
        rw [List.map_cons, List.mem_cons, not_or] at h1
        obtain ⟨k, x⟩ := q
        rw [Dict.set, if_neg (Ne.symm h1.1), ih h1.2, List.cons_append]
    have h2 : Dict.update d (e :: l) = Dict.update (d ++ [e]) l := by
      unfold Dict.update
      rw [List.foldl_cons, hset]
    rw [h2, ih hn.2, List.append_assoc, List.singleton_append]
    intro k hk
    rw [List.map_append, List.mem_append, not_or]
    refine ⟨h k (List.mem_cons_of_mem _ hk), ?_⟩
    rw [List.map_singleton, List.mem_singleton]
    rintro rfl
    exact hn.1 hk

theorem averages_names (acc : Bool) (yTrue yPred labels : List S) :
    ((averages (K := K) acc yTrue yPred labels).map (·.1)).Nodup ∧
      ∀ k ∈ (averages (K := K) acc yTrue yPred labels).map (·.1), '_' ∉ k := by
  unfold averages
  split <;> simp

/-- The report as a list of entries. -/
theorem classificationReport_eq {int : ℕ → S} (hint : Function.Injective int) {ns : List Str}
    {E : List (Str × Str)} (hE : IsStructure ns E) {net net' : Net Str S K} (hr : Reach int ns E net)
    (hne : ∀ v ∈ net.nodes, statesOf net v ≠ []) {h₀ h₁ : Heap Str S} {ref₀ : ℕ} {a : FitArgs K}
    (hf : fitCpds int net h₀ ref₀ a = (net', h₁, .ok ()))
    {tables : List (Str × Table Str S K)} (hc : cpds net' = .ok tables) {v : Str} {t : Table Str S K}
    (ht : (v, t) ∈ tables) {h : Heap Str S} {ref : ℕ} {df : DF Str S} (hdf : h[ref]? = some df)
    (hcols : ∀ p ∈ v :: t.parents, p ∈ df.cols)
    (hk : ∀ r ∈ df.rows, ∀ p ∈ v :: t.parents, ∃ s ∈ statesOf net p, r p = some s)
    (oracle : DF Str S → List ℕ) (predName : Str → Str) {str : S → Str}
    (hstr : ∀ s ∈ statesOf net v, ∀ s' ∈ statesOf net v, str s = str s' → s = s')
    {order order' : List S} (hord : order.Perm (statesOf net v)) (hord' : order'.Perm (statesOf net v)) (acc : Bool) :
    ∃ (h' : Heap Str S) (pred tru : List S), h <+: h' ∧
      List.Forall₂ (fun r s => s ∈ statesOf net v ∧ ∃ ps x, t.parents.map r = ps.map some ∧
        t.entry s ps = some x ∧ ∀ s' ∈ statesOf net v, ∃ y, t.entry s' ps = some y ∧ y ≤ x ∧ (s' < s → y < x))
        df.rows pred ∧
      df.rows.map (fun r => r v) = tru.map some ∧
      classificationReport oracle int predName str order order' acc net' h ref v = (h', .ok
        (((statesOf net v).map fun s => (fmtName str v s, .scores (labelScores tru pred s))) ++
          averages acc tru pred (statesOf net v))) ∧
      ((statesOf net v).map (fmtName str v)).Nodup := by
  obtain ⟨hsorted, states, hst, hvs⟩ := fitted_states hint hE hr hne hf hc ht
  have hnd : (statesOf net v).Nodup := hsorted.imp ne_of_lt
  obtain ⟨h', out, hpred, hpre, hcolsout, hrowsout⟩ := predict_argmax hint hE hr hne hf hc ht hdf
    (fun p hp => hcols p (List.mem_cons_of_mem _ hp)) (fun r hr p hp => hk r hr p (List.mem_cons_of_mem _ hp))
    oracle predName
  obtain ⟨pred, hP1, hP2⟩ : ∃ pred : List S,
      List.Forall₂ (fun r s => s ∈ statesOf net v ∧ ∃ ps x, t.parents.map r = ps.map some ∧
        t.entry s ps = some x ∧ ∀ s' ∈ statesOf net v, ∃ y, t.entry s' ps = some y ∧ y ≤ x ∧ (s' < s → y < x))
        df.rows pred ∧ (out.rows.mapM fun r => r (predName v)) = some pred := by
    generalize df.rows = rows at hrowsout
    generalize out.rows = rows' at hrowsout
    induction hrowsout with
    | nil => exact ⟨[], .nil, rfl⟩
    | @cons r r' rows rows' hh _ ih =>
      obtain ⟨pred, hP1, hP2⟩ := ih
      obtain ⟨s, hs, ps, x, h1, h2, h3, h4⟩ := hh
      exact ⟨s :: pred, .cons ⟨hs, ps, x, h1, h3, h4⟩ hP1, by rw [List.mapM_cons, h2, hP2]; rfl⟩
  obtain ⟨tru, hT1, hT2⟩ : ∃ tru : List S, (df.rows.mapM fun r => r v) = some tru ∧
      df.rows.map (fun r => r v) = tru.map some := by
    have hkv : ∀ r ∈ df.rows, ∃ s, r v = some s := fun r hr =>
      (hk r hr v List.mem_cons_self).imp fun s h => h.2
    clear hrowsout hP1 hk hdf
    generalize df.rows = rows at hkv
    induction rows with
    | nil => exact ⟨[], rfl, rfl⟩
    | cons r rows ih =>
      obtain ⟨tru, h1, h2⟩ := ih fun r hr => hkv r (List.mem_cons_of_mem _ hr)
      obtain ⟨s, hs⟩ := hkv r List.mem_cons_self
      exact ⟨s :: tru, by rw [List.mapM_cons, hs, h1]; rfl, by rw [List.map_cons, List.map_cons, hs, h2]⟩
  have hlenT : tru.length = df.rows.length := by
    have := congrArg List.length hT2
    simpa using this.symm
  have hlen : tru.length = pred.length := by rw [hlenT, hP1.length_eq]
  have hnames : ((statesOf net v).map (fmtName str v)).Nodup := by
    refine List.Nodup.map_on (fun s hs s' hs' he => hstr s hs s' hs' ?_) hnd
    unfold fmtName at he
    exact (List.cons.inj (List.append_cancel_left he)).2
  have hdict : Dict.ofList (((statesOf net v).map (fmtName str v)).zip
      ((statesOf net v).map fun s => Entry.scores (labelScores (K := K) tru pred s))) =
      (statesOf net v).map fun s => (fmtName str v s, .scores (labelScores tru pred s)) := by
    rw [List.zip_map', Dict.ofList_eq]
    rw [List.map_map]
    exact hnames
  refine ⟨h', pred, tru, hpre, hP1, hT2, ?_, hnames⟩
  unfold classificationReport
  rw [hdf, hpred]
  simp only
  rw [hst]
  simp only
  rw [if_neg (by simp only [not_or, not_not]; exact ⟨hvs, hcols v List.mem_cons_self⟩), hT1, hP2]
  simp only
  rw [sort_perm hord hsorted, sort_perm hord' hsorted, sklearnReport, if_neg (by simpa using hlen), hdict,
    update_append (averages_names acc tru pred (statesOf net v)).1]
  intro k hk hmem
  refine (averages_names (K := K) acc tru pred (statesOf net v)).2 k hk ?_
  rw [List.map_map] at hmem
  obtain ⟨s, -, rfl⟩ := List.mem_map.1 hmem
  simp [fmtName]

/-- **C73**: for complete data the entry of a state in the report, under the name `{node}_{state}`, is computed from
the rows in which that state is the true one, and those in which it is the predicted one (a most likely state
according to the CPD, see C11). -/
theorem classificationReport_correct {int : ℕ → S} (hint : Function.Injective int) {ns : List Str}
    {E : List (Str × Str)} (hE : IsStructure ns E) {net net' : Net Str S K} (hr : Reach int ns E net)
    (hne : ∀ v ∈ net.nodes, statesOf net v ≠ []) {h₀ h₁ : Heap Str S} {ref₀ : ℕ} {a : FitArgs K}
    (hf : fitCpds int net h₀ ref₀ a = (net', h₁, .ok ()))
    {tables : List (Str × Table Str S K)} (hc : cpds net' = .ok tables) {v : Str} {t : Table Str S K}
    (ht : (v, t) ∈ tables) {h : Heap Str S} {ref : ℕ} {df : DF Str S} (hdf : h[ref]? = some df)
    (hcols : ∀ p ∈ v :: t.parents, p ∈ df.cols)
    (hk : ∀ r ∈ df.rows, ∀ p ∈ v :: t.parents, ∃ s ∈ statesOf net p, r p = some s)
    (oracle : DF Str S → List ℕ) (predName : Str → Str) {str : S → Str}
    (hstr : ∀ s ∈ statesOf net v, ∀ s' ∈ statesOf net v, str s = str s' → s = s')
    {order order' : List S} (hord : order.Perm (statesOf net v)) (hord' : order'.Perm (statesOf net v)) (acc : Bool) :
    ∃ (h' : Heap Str S) (pred : List S) (report : List (Str × Entry K)), h <+: h' ∧
      List.Forall₂ (fun r s => s ∈ statesOf net v ∧ ∃ ps x, t.parents.map r = ps.map some ∧
        t.entry s ps = some x ∧ ∀ s' ∈ statesOf net v, ∃ y, t.entry s' ps = some y ∧ y ≤ x ∧ (s' < s → y < x))
        df.rows pred ∧
      classificationReport oracle int predName str order order' acc net' h ref v = (h', .ok report) ∧
      ∀ s ∈ statesOf net v, ∃ e, Dict.get? report (fmtName str v s) = some (.scores e) ∧
        e.support = df.rows.countP (fun r => r v = some s) ∧
        e.precision = fraction ((df.rows.zip pred).countP fun q => q.1 v = some s ∧ q.2 = s)
          (pred.countP (· = s)) ∧
        e.recall = fraction ((df.rows.zip pred).countP fun q => q.1 v = some s ∧ q.2 = s)
          (df.rows.countP fun r => r v = some s) ∧
        e.f1 = (if e.precision + e.recall = 0 then 0
          else 2 * e.precision * e.recall / (e.precision + e.recall)) := by
  obtain ⟨h', pred, tru, hpre, hP1, hT2, hrep, hnames⟩ := classificationReport_eq hint hE hr hne hf hc ht hdf hcols hk
    oracle predName hstr hord hord' acc
  have hc1 : ∀ s, tru.countP (· = s) = df.rows.countP fun r => r v = some s := by
    intro s
    have h1 := congrArg (List.countP fun c => decide (c = some s)) hT2
    rw [List.countP_map, List.countP_map] at h1
    have h2 : ((fun c => decide (c = some s)) ∘ some) = fun x : S => decide (x = s) := by
      funext x
      simp
    rw [h2] at h1
    rw [← h1]
    rfl
  have hc2 : ∀ s, (tru.zip pred).countP (fun q => decide (q.1 = s ∧ q.2 = s)) =
      (df.rows.zip pred).countP fun q => q.1 v = some s ∧ q.2 = s := by
    intro s
    have h1 := congrArg (fun l => List.countP (fun q : Option S × S => decide (q.1 = some s ∧ q.2 = s)) (l.zip pred)) hT2
    simp only [List.zip_map_left, List.countP_map] at h1
    have h2 : ((fun q : Option S × S => decide (q.1 = some s ∧ q.2 = s)) ∘ Prod.map some id) =
        fun q : S × S => decide (q.1 = s ∧ q.2 = s) := by
      funext q
      simp
    rw [h2] at h1
    rw [← h1]
    rfl
  have hdiv : ∀ m n : ℕ, safeDiv (m : K) (n : K) = fraction m n := by
    intro m n
    unfold safeDiv fraction
    simp
  refine ⟨h', pred, _, hpre, hP1, hrep, ?_⟩
  intro s hs
  refine ⟨labelScores tru pred s, ?_, ?_, ?_, ?_, ?_⟩
  · rw [get?_append_left (by rw [List.map_map]; exact List.mem_map_of_mem hs)]
    refine Dict.get?_of_mem ?_ (List.mem_map_of_mem hs)
    rw [List.map_map]
    exact hnames
  · exact hc1 s
  · rw [← hc2 s]
    exact hdiv _ _
  · rw [← hc1 s, ← hc2 s]
    exact hdiv _ _
  · rfl

end

end Verif.Evaluation
