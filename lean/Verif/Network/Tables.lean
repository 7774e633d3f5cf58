import Verif.Network.Fit

/-!
# The tables reported after fitting
-/

namespace Verif.Network

open Verif.BBN (lookup_mem lookup_of_mem_nodup lookup_isSome_iff)
open Function

section
variable {V S K : Type} [LinearOrder V] [LinearOrder S]

theorem sortedParents_spec {E : List (V × V)} (hE : E.Nodup) (v : V) :
    IsParentList E v (sortedParents E v) := by
  constructor
  · have hs : (sortedParents E v).Pairwise (· ≤ ·) := sorted_insertionSort _
    have hn : (sortedParents E v).Nodup := by
      rw [sortedParents, (List.perm_insertionSort (· ≤ ·) _).nodup_iff]
      refine List.Nodup.map_on ?_ (hE.filter _)
      rintro ⟨a, b⟩ h ⟨a', b'⟩ h' hh
      simp only [List.mem_filter, decide_eq_true_eq] at h h' hh
      rw [hh, h.2, h'.2]
    exact (hs.and hn).imp fun ⟨h, h'⟩ => lt_of_le_of_ne h h'
  · intro u
    rw [sortedParents, mem_insertionSort']
    simp

/-- The code of a state. -/
def codeOf (states : List (V × List (S × ℕ))) (v : V) (s : S) : ℕ :=
  (((states.lookup v).getD []).lookup s).getD 0

/-- The states of a node. -/
def keysOf (states : List (V × List (S × ℕ))) (v : V) : List S :=
  ((states.lookup v).getD []).map Prod.fst

theorem statesOf_eq {net : Net V S K} {states : List (V × List (S × ℕ))}
    (h : net.states = some states) (v : V) : statesOf net v = keysOf states v := by
  simp [statesOf, h, keysOf]

/-- Well-formed encodings. -/
def EncWF (states : List (V × List (S × ℕ))) : Prop :=
  ∀ v, ∃ l : List S, l.Nodup ∧ (states.lookup v).getD [] = encoding l

theorem Net.WF.encWF {ns : List V} {E : List (V × V)} {net : Net V S K} (h : net.WF ns E)
    {states : List (V × List (S × ℕ))} (hs : net.states = some states) : EncWF states := by
  intro v
  cases hl : states.lookup v with
  | none => exact ⟨[], by simp, by simp [encoding, enumDict]⟩
  | some d => exact h.enc states hs (v, d) (lookup_mem hl)

theorem keysOf_sorted {states : List (V × List (S × ℕ))} (h : EncWF states) (v : V) :
    (keysOf states v).Pairwise (· < ·) := by
  obtain ⟨l, -, hl⟩ := h v
  rw [keysOf, hl]
  exact encoding_keys_sorted l

theorem keysOf_nodup {states : List (V × List (S × ℕ))} (h : EncWF states) (v : V) :
    (keysOf states v).Nodup := (keysOf_sorted h v).imp fun h => ne_of_lt h

theorem mapCell_eq_iff {int : ℕ → S} (hint : Injective int) {states : List (V × List (S × ℕ))}
    (h : EncWF states) {v : V} {s : S} (hs : s ∈ keysOf states v) (x : Option S) :
    mapCell int ((states.lookup v).getD []) x = some (int (codeOf states v s)) ↔ x = some s := by
  obtain ⟨l, -, hl⟩ := h v
  rw [codeOf]
  rw [keysOf] at hs
  rw [hl] at hs ⊢
  obtain ⟨k, hk⟩ := (lookup_isSome_iff _ _).2 hs
  rw [hk]
  cases x with
  | none => simp [mapCell]
  | some t =>
    simp only [mapCell, Option.getD_some, Option.some.injEq, Option.map_eq_some_iff]
    constructor
    · rintro ⟨j, hj, hjk⟩
      rw [hint hjk] at hj
      exact encoding_injective hj hk
    · rintro rfl
      exact ⟨k, hk, rfl⟩

theorem mapCell_isSome {int : ℕ → S} {states : List (V × List (S × ℕ))} {v : V} (x : Option S) :
    (mapCell int ((states.lookup v).getD []) x).isSome ↔ ∃ s ∈ keysOf states v, x = some s := by
  cases x with
  | none => simp [mapCell]
  | some t =>
    simp only [mapCell, Option.isSome_map, Option.isSome_iff_exists, lookup_isSome_iff, keysOf,
      Option.some.injEq]
    constructor
    · intro h; exact ⟨t, h, rfl⟩
    · rintro ⟨s, hs, rfl⟩; exact hs

theorem stateNames_eq {int : ℕ → S} {states : List (V × List (S × ℕ))} (h : EncWF states) (v : V) :
    stateNames int states v = (keysOf states v).map fun s => int (codeOf states v s) := by
  have : stateNames int states v = ((states.lookup v).getD []).map fun q => int q.2 := by
    unfold stateNames
    cases states.lookup v <;> rfl
  rw [this, keysOf, List.map_map]
  apply List.map_congr_left
  intro q hq
  obtain ⟨l, -, hl⟩ := h v
  simp only [comp, codeOf]
  rw [hl] at hq ⊢
  rw [lookup_of_mem_nodup (encoding_keys_nodup l) (show (q.1, q.2) ∈ _ from hq)]
  rfl

theorem product_zipWith {α β : Type} (c : V → α → β) (f : V → List α) (ps : List V) :
    product (ps.map fun p => (f p).map (c p)) =
      (product (ps.map f)).map fun t => List.zipWith c ps t := by
  induction ps with
  | nil => rfl
  | cons p ps ih =>
    simp only [List.map_cons, product, ih, List.flatMap_map, List.map_flatMap, List.map_map]
    rfl

/-- Rows of codes are counted as the rows of states they encode. -/
theorem countRows_eq {int : ℕ → S} (hint : Injective int) {net : Net V S K}
    {states : List (V × List (S × ℕ))} (hst : net.states = some states) (h : EncWF states)
    {v : V} (hv : v ∈ net.nodes) {ps : List V} (hps : ∀ p ∈ ps, p ∈ net.nodes) (df : DF V S)
    {s : S} (hs : s ∈ keysOf states v) {t : List S}
    (ht : List.Forall₂ (fun s p => s ∈ keysOf states p) t ps) :
    countRows (completeRows (V := V) ⟨net.nodes, df.rows.map (encRow int states net.nodes)⟩) v ps
      (int (codeOf states v s)) (List.zipWith (fun p s => int (codeOf states p s)) ps t) =
    observed net df v ps s t := by
  rw [countRows, completeRows, ← List.countP_eq_length_filter, List.countP_filter, List.countP_map,
    observed]
  apply List.countP_congr
  intro r _
  simp only [comp, Bool.and_eq_true, decide_eq_true_eq, List.all_eq_true, Known, statesOf_eq hst]
  have hv' : encRow int states net.nodes r v = some (int (codeOf states v s)) ↔ r v = some s := by
    rw [encRow, if_pos hv]
    exact mapCell_eq_iff hint h hs _
  have hall : (∀ x ∈ net.nodes, (encRow int states net.nodes r x).isSome = true) ↔
      ∀ u ∈ net.nodes, ∃ s ∈ keysOf states u, r u = some s := by
    refine forall₂_congr fun u hu => ?_
    rw [encRow, if_pos hu]
    exact mapCell_isSome _
  have hpar : ps.map (encRow int states net.nodes r) =
      (List.zipWith (fun p s => int (codeOf states p s)) ps t).map some ↔
      ps.map r = t.map some := by
    clear hv' hall
    induction ht with
    | nil => simp
    | @cons a p t ps ha _ ih =>
      have ih := ih fun q hq => hps q (by simp [hq])
      simp only [List.map_cons, List.zipWith_cons_cons, List.cons.injEq, ih]
      rw [encRow, if_pos (hps p (by simp)), mapCell_eq_iff hint h ha]
  rw [hv', hall, hpar, and_comm]

theorem flatten_drop_take {α : Type} (l : List (List α)) (c : ℕ) (h : ∀ x ∈ l, x.length = c)
    (i : ℕ) : (l.flatten.drop (i * c)).take c = l.getD i [] := by
  induction l generalizing i with
  | nil => simp
  | cons x l ih =>
    have hx := h x (by simp)
    cases i with
    | zero =>
      simp only [Nat.zero_mul, List.drop_zero, List.flatten_cons, List.getD_cons_zero]
      rw [List.take_append_of_le_length (by omega), List.take_of_length_le (by omega)]
    | succ i =>
      rw [List.getD_cons_succ, ← ih (fun y hy => h y (by simp [hy])) i, List.flatten_cons,
        List.drop_append, List.drop_of_length_le (by rw [hx, Nat.succ_mul]; omega), List.nil_append, hx,
        show (i + 1) * c - c = i * c by rw [Nat.succ_mul]; omega]

theorem reshape_flatMap (r c : ℕ) (f : ℕ → List K) (hf : ∀ i < r, (f i).length = c) :
    reshape ((List.range r).flatMap f) r c = .ok ((List.range r).map f) := by
  have hlen : ((List.range r).flatMap f).length = r * c := by
    rw [List.length_flatMap, List.map_congr_left (g := fun _ => c)]
    · simp
    · intro i hi
      exact hf i (by simpa using hi)
  rw [reshape, if_pos hlen]
  congr 1
  apply List.map_congr_left
  intro i hi
  rw [List.flatMap_def, flatten_drop_take]
  · rw [List.getD_eq_getElem?_getD]
    simp only [List.mem_range] at hi
    simp [hi]
  · intro x hx
    obtain ⟨j, hj, rfl⟩ := List.mem_map.1 hx
    exact hf j (by simpa using hj)

end

section
variable {V S K : Type} [LinearOrder V] [LinearOrder S] [Zero K] [One K] [Add K] [Div K] [NatCast K]

/-- The weight of a state under an estimator: `N` are the counts of the states `ks`. -/
def weightOf (ps : Pseudo K) (ks : List S) (N : S → ℕ) (s : S) : K :=
  match ps with
  | .fillEmpty => if ∀ t ∈ ks, N t = 0 then 1 else (N s : K)
  | .add a => (N s : K) + a

theorem weights_map (ps : Pseudo K) (ks : List S) (N : S → ℕ) :
    weights ps (ks.map N) = ks.map (weightOf ps ks N) := by
  cases ps with
  | fillEmpty =>
    simp only [weights, List.all_map, List.map_map, List.all_eq_true, comp, decide_eq_true_eq]
    by_cases h : ∀ t ∈ ks, N t = 0
    · rw [if_pos h]
      apply List.map_congr_left
      intro s _
      simp only [weightOf, if_pos h, comp]
    · rw [if_neg h]
      apply List.map_congr_left
      intro s _
      simp only [weightOf, if_neg h, comp]
  | add a => simp [weights, weightOf, comp_def]

/-- The estimated probability. -/
def probOf (ps : Pseudo K) (ks : List S) (N : S → ℕ) (s : S) : K :=
  weightOf ps ks N s / (ks.map (weightOf ps ks N)).sum

theorem normaliseCol_weights (ps : Pseudo K) (ks : List S) (N : S → ℕ) :
    normaliseCol (weights ps (ks.map N)) = ks.map (probOf ps ks N) := by
  rw [weights_map, normaliseCol, List.map_map]
  rfl

theorem range_map_getD {α β : Type} (l : List α) (cols : List β) (g : β → α → K) :
    ((List.range l.length).map fun i => cols.map fun t => (l.map (g t)).getD i 0) =
      l.map fun s => cols.map fun t => g t s := by
  apply List.ext_getElem
  · simp
  · intro i h1 h2
    simp only [List.getElem_map, List.getElem_range]
    apply List.map_congr_left
    intro t _
    simp only [List.length_map] at h2
    simp [h2]

theorem cpdTable_estimate {int : ℕ → S} (hint : Injective int) {net : Net V S K}
    {states : List (V × List (S × ℕ))} (hst : net.states = some states) (h : EncWF states)
    (hE : net.edges.Nodup) (hcov : ∀ v ∈ net.nodes, v ∈ states.map Prod.fst)
    (hnodes : ∀ e ∈ net.edges, e.1 ∈ net.nodes)
    (hne : ∀ v ∈ net.nodes, statesOf net v ≠ []) {v : V} (hv : v ∈ net.nodes)
    (df : DF V S) (ps : V → List V → Pseudo K) :
    cpdTable states (v, estimateCpd ps (stateNames int states) net.edges
        (completeRows ⟨net.nodes, df.rows.map (encRow int states net.nodes)⟩) v) =
      .ok ⟨keysOf states v, sortedParents net.edges v,
        product ((sortedParents net.edges v).map (keysOf states)),
        (keysOf states v).map fun s =>
          (product ((sortedParents net.edges v).map (keysOf states))).map fun t =>
            probOf (ps v (sortedParents net.edges v)) (keysOf states v)
              (fun s => observed net df v (sortedParents net.edges v) s t) s⟩ := by
  set par := sortedParents net.edges v with hpar
  have hpn : ∀ p ∈ par, p ∈ net.nodes := by
    intro p hp
    exact hnodes _ (((sortedParents_spec hE v).2 p).1 hp)
  have hss : ∀ u ∈ net.nodes, sortedStates states u = .ok (keysOf states u) := by
    intro u hu
    obtain ⟨d, hd⟩ := (lookup_isSome_iff states u).2 (hcov u hu)
    have := keysOf_sorted h u
    simp only [sortedStates, hd, keysOf, Option.getD_some] at *
    rw [insertionSort_of_sorted this]
  have hpos : 1 ≤ (product (par.map (keysOf states))).length := by
    rw [length_product]
    refine Nat.one_le_iff_ne_zero.2 ?_
    rw [Ne, List.prod_eq_zero_iff]
    simp only [List.map_map, List.mem_map, comp, List.length_eq_zero_iff, not_exists, not_and]
    intro p hp h0
    exact hne p (hpn p hp) (by rw [statesOf_eq hst, h0])
  have hvals : (estimateCpd ps (stateNames int states) net.edges
        (completeRows ⟨net.nodes, df.rows.map (encRow int states net.nodes)⟩) v).values =
      (List.range (keysOf states v).length).flatMap fun i =>
        (product (par.map (keysOf states))).map fun t =>
          ((keysOf states v).map (probOf (ps v par) (keysOf states v)
            (fun s => observed net df v par s t))).getD i 0 := by
    have hprod : product (par.map (stateNames int states)) =
        (product (par.map (keysOf states))).map fun t =>
          List.zipWith (fun p s => int (codeOf states p s)) par t := by
      rw [← product_zipWith]
      congr 1
      apply List.map_congr_left
      intro p _
      exact stateNames_eq h p
    simp only [estimateCpd, ← hpar]
    rw [hprod, stateNames_eq h v, List.length_map, List.map_map]
    congr 1
    funext i
    rw [List.map_map]
    apply List.map_congr_left
    intro t ht
    simp only [comp]
    rw [List.map_map, ← normaliseCol_weights]
    congr 3
    apply List.map_congr_left
    intro s hs
    simp only [comp]
    rw [mem_product] at ht
    exact countRows_eq hint hst h hv hpn df hs (by simpa using ht)
  have hparents : (estimateCpd ps (stateNames int states) net.edges
        (completeRows ⟨net.nodes, df.rows.map (encRow int states net.nodes)⟩) v).parents = par := rfl
  unfold cpdTable
  rw [hparents, mapM_ok (g := keysOf states) fun p hp => hss p (hpn p hp)]
  simp only [bind, Except.bind, pure, Except.pure]
  rw [hss v hv]
  simp only
  rw [hvals, Nat.max_eq_right hpos, reshape_flatMap]
  · simp only
    rw [range_map_getD]
  · intro i _
    simp

end

end Verif.Network
