import Verif.Transform.Spec
import Mathlib.Data.List.GetD

/-!
# Properties of the transformer for time series
-/

namespace Verif.Transform

section
variable {C T K : Type} {α : Type}

/-! ### C35 -/

/-- Consecutive pairs of points. -/
def consec : ℕ → List ℕ → List (ℕ × ℕ)
  | _, [] => []
  | s, r :: R => (s, r) :: consec r R

theorem zip_consec (s : ℕ) (R : List ℕ) : (s :: R).dropLast.zip R = consec s R := by
  induction R generalizing s with
  | nil => rfl
  | cons r R ih => rw [List.dropLast_cons₂, List.zip_cons_cons, ih]; rfl

theorem consec_map (s : ℕ) (R : List ℕ) :
    consec (s + 1) (R.map (· + 1)) = (consec s R).map fun q => (q.1 + 1, q.2 + 1) := by
  induction R generalizing s with
  | nil => rfl
  | cons r R ih => simp only [List.map_cons, consec, ih]

theorem cutPoints_succ (i : ℕ) (l : List ℤ) : cutPoints (i + 1) l = (cutPoints i l).map (· + 1) := by
  induction l generalizing i with
  | nil => rfl
  | cons a l ih =>
    cases l with
    | nil => rfl
    | cons b l =>
      rw [cutPoints, cutPoints]
      split
      · rw [List.map_cons, ih]
      · rw [ih]

theorem slice_succ (x : α) (l : List α) (q : ℕ × ℕ) :
    slice (x :: l) (q.1 + 1) (q.2 + 1) = slice l q.1 q.2 := by
  simp [slice]

theorem cut_eq (index : List ℤ) (values : List α) :
    cut index values =
      (consec 0 (cutPoints 0 index ++ [index.length])).map fun q => slice values q.1 q.2 := by
  rw [cut, ← zip_consec]
  rfl

/-- The pieces, with their times, by recursion. -/
def cutRec : List (ℤ × α) → List (List (ℤ × α))
  | [] => [[]]
  | [a] => [[a]]
  | a :: b :: l =>
    if b.1 - a.1 > 1 then [a] :: cutRec (b :: l)
    else match cutRec (b :: l) with
      | q :: qs => (a :: q) :: qs
      | [] => []

theorem cutRec_head (b : ℤ × α) (l : List (ℤ × α)) :
    ∃ q qs, cutRec (b :: l) = (b :: q) :: qs := by
  induction l generalizing b with
  | nil => exact ⟨[], [], rfl⟩
  | cons c l ih =>
    rw [cutRec]
    split
    · exact ⟨[], _, rfl⟩
    · obtain ⟨q, qs, h⟩ := ih c
      rw [h]
      exact ⟨_, _, rfl⟩

theorem cut_eq_cutRec (index : List ℤ) (values : List α) (h : index.length = values.length) :
    cut index values = (cutRec (index.zip values)).map (·.map Prod.snd) := by
  rw [cut_eq]
  induction index generalizing values with
  | nil =>
    cases values with
    | nil => rfl
    | cons => simp at h
  | cons a index ih =>
    cases values with
    | nil => simp at h
    | cons x values =>
      cases index with
      | nil =>
        cases values with
        | nil => rfl
        | cons => simp at h
      | cons b index =>
        cases values with
        | nil => simp at h
        | cons y values =>
          have ih' := ih (y :: values) (by simpa using h)
          rw [List.zip_cons_cons, List.zip_cons_cons, cutRec]
          rw [List.zip_cons_cons] at ih'
          have hR : cutPoints 1 (b :: index) ++ [(a :: b :: index).length] =
              (cutPoints 0 (b :: index) ++ [(b :: index).length]).map (· + 1) := by
            rw [cutPoints_succ, List.map_append]
            rfl
          by_cases hgap : b - a > 1
          · have hc : cutPoints 0 (a :: b :: index) = 1 :: cutPoints 1 (b :: index) := by
              rw [cutPoints, if_pos hgap]
            rw [if_pos (by exact hgap), hc, List.cons_append, consec, hR, consec_map]
            rw [List.map_cons, List.map_cons, List.map_map, ← ih']
            congr 1
          · have hc : cutPoints 0 (a :: b :: index) = cutPoints 1 (b :: index) := by
              rw [cutPoints, if_neg hgap]
            rw [if_neg (by exact hgap), hc, hR]
            obtain ⟨q, qs, hq⟩ := cutRec_head (b, y) (index.zip values)
            rw [hq] at ih' ⊢
            cases hL : cutPoints 0 (b :: index) ++ [(b :: index).length] with
            | nil => simp at hL
            | cons r R =>
              rw [hL, consec, List.map_cons, List.map_cons] at ih'
              rw [List.map_cons, consec, consec_map, List.map_cons, List.map_cons, List.map_map]
              injection ih' with h1 h2
              congr 1
              rw [List.map_cons, ← h1]
              simp [slice]

theorem cutRec_isCutting (obs : List (ℤ × α)) : IsCutting obs (cutRec obs) := by
  induction obs with
  | nil => exact ⟨rfl, by simp [cutRec], by simp [cutRec], by simp⟩
  | cons a obs ih =>
    cases obs with
    | nil => exact ⟨rfl, by simp [cutRec], by simp [cutRec], by simp [cutRec]⟩
    | cons b obs =>
      obtain ⟨q, qs, hq⟩ := cutRec_head b obs
      obtain ⟨h1, h2, h3, h4⟩ := ih
      rw [hq] at h1 h2 h3 h4
      rw [cutRec, hq]
      split
      · rename_i hgap
        refine ⟨by rw [List.flatten_cons, h1]; rfl, ?_, ?_, ?_⟩
        · intro x hx
          rcases List.mem_cons.1 hx with rfl | hx
          · simp
          · exact h2 x hx
        · rw [List.isChain_cons_cons]
          refine ⟨?_, h3⟩
          intro x hx y hy
          simp at hx hy
          subst hx hy
          exact hgap
        · intro _ hx
          rcases List.mem_cons.1 hx with hx | hx
          · cases hx
          · exact h4 (by simp) hx
      · rename_i hgap
        refine ⟨by rw [List.flatten_cons, List.cons_append, ← List.flatten_cons, h1], ?_, ?_, ?_⟩
        · intro x hx
          rcases List.mem_cons.1 hx with rfl | hx
          · rw [List.isChain_cons_cons]
            exact ⟨by omega, h2 _ (by simp)⟩
          · exact h2 x (by simp [hx])
        · cases qs with
          | nil => simp
          | cons q' qs =>
            rw [List.isChain_cons_cons] at h3 ⊢
            refine ⟨?_, h3.2⟩
            intro x hx y hy
            exact h3.1 x (by simpa using hx) y hy
        · intro _ hx
          rcases List.mem_cons.1 hx with hx | hx
          · cases hx
          · exact h4 (by simp) (by simp [hx])

/-- **C35**: the pieces into which a data frame is cut. -/
theorem cut_correct (index : List ℤ) (values : List α) (h : index.length = values.length) :
    ∃ pieces, IsCutting (index.zip values) pieces ∧
      cut index values = pieces.map (·.map Prod.snd) :=
  ⟨_, cutRec_isCutting _, cut_eq_cutRec index values h⟩

/-! ### C36 -/

theorem hstack_eq {L : List (List (List K))} {m : ℕ} (hne : L ≠ []) (h : ∀ a ∈ L, a.length = m) :
    hstack L = (List.range m).map fun j => L.flatMap fun a => a.getD j [] := by
  induction L with
  | nil => exact absurd rfl hne
  | cons a L ih =>
    have ha : a = (List.range m).map fun j => a.getD j [] := by
      apply List.ext_getElem
      · simp [h a (by simp)]
      · intro i h1 h2
        rw [List.getElem_map, List.getElem_range, List.getD_eq_getElem _ _ h1]
    cases L with
    | nil =>
      rw [hstack]
      simpa using ha
    | cons b L =>
      rw [hstack, ih (by simp) (fun x hx => h x (by simp [hx]))]
      · conv_lhs => rw [ha]
        rw [List.zipWith_map, List.zipWith_self]
        rfl
      · simp

theorem slice_length {β : Type} (l : List β) (s e : ℕ) : (slice l s e).length = min e l.length - s := by
  simp [slice]

theorem slice_getD (l : List (List K)) {s e j : ℕ} (h : s + j < e) :
    (slice l s e).getD j [] = l.getD (s + j) [] := by
  rw [slice, List.getD_eq_getElem?_getD, List.getD_eq_getElem?_getD, List.getElem?_drop,
    List.getElem?_take, if_pos h]

/-- The two arrays computed from one piece. -/
theorem piece_windows {p : ℕ} (hp : p ≠ 0) (r : List (List K)) :
    windows p r = (r.drop p).zip
        (hstack ((List.range p).map fun i => sliceNeg r (p - i - 1) (i + 1))) ∧
      (r.drop p).length = r.length - p ∧
      (hstack ((List.range p).map fun i => sliceNeg r (p - i - 1) (i + 1))).length = r.length - p := by
  have hlen : ∀ a ∈ (List.range p).map fun i => sliceNeg r (p - i - 1) (i + 1),
      a.length = r.length - p := by
    intro a ha
    obtain ⟨i, hi, rfl⟩ := List.mem_map.1 ha
    rw [List.mem_range] at hi
    rw [sliceNeg, slice_length]
    omega
  have hne : ((List.range p).map fun i => sliceNeg r (p - i - 1) (i + 1)) ≠ [] := by
    simpa using hp
  rw [hstack_eq hne hlen]
  refine ⟨?_, by simp, by simp⟩
  apply List.ext_getElem
  · simp [windows]
  · intro j h1 h2
    have hj : j < r.length - p := by simpa [windows] using h1
    simp only [windows, List.getElem_map, List.getElem_zip, List.getElem_range, List.getElem_drop]
    congr 1
    · rw [List.getD_eq_getElem _ _ (by omega)]
      congr 1
      omega
    · rw [List.flatMap_map, List.flatMap_def, List.flatMap_def]
      congr 1
      apply List.map_congr_left
      intro k hk
      rw [List.mem_range] at hk
      rw [sliceNeg, slice_getD r (by omega)]
      congr 1
      omega

/-- **C36**, the arrays made from the pieces. -/
theorem convert_correct {p : ℕ} (hp : p ≠ 0) {pieces : List (List (List K))} (hne : pieces ≠ []) :
    ∃ X Xlags, convert pieces p = .ok (X, Xlags) ∧ X.length = Xlags.length ∧
      X.length = (pieces.map fun r => r.length - p).sum ∧
      X.zip Xlags = pieces.flatMap (windows p) := by
  refine ⟨_, _, by rw [convert, if_neg (by simp [hne, hp])], ?_, ?_, ?_⟩
  · clear hne
    induction pieces with
    | nil => rfl
    | cons r pieces ih =>
      obtain ⟨-, h2, h3⟩ := piece_windows hp r
      simp only [List.map_cons, List.flatten_cons, List.length_append, ih, h2, h3]
  · clear hne
    induction pieces with
    | nil => rfl
    | cons r pieces ih =>
      obtain ⟨-, h2, h3⟩ := piece_windows hp r
      simp only [List.map_cons, List.flatten_cons, List.length_append, ih, h2, List.sum_cons]
  · clear hne
    induction pieces with
    | nil => rfl
    | cons r pieces ih =>
      obtain ⟨h1, h2, h3⟩ := piece_windows hp r
      simp only [List.map_cons, List.flatten_cons, List.flatMap_cons]
      rw [List.zip_append (by rw [h2, h3]), ih, h1]

/-! #### In terms of time -/

theorem lookup_append' (l l' : List (ℤ × List K)) (t : ℤ) :
    (l ++ l').lookup t = (l.lookup t).or (l'.lookup t) := by
  induction l with
  | nil => simp
  | cons a l ih =>
    obtain ⟨b, y⟩ := a
    rw [List.cons_append, List.lookup_cons, List.lookup_cons]
    cases t == b <;> simp [ih]

theorem lookup_none_of {l : List (ℤ × List K)} {t : ℤ} (h : ∀ a ∈ l, a.1 ≠ t) : l.lookup t = none := by
  rw [List.lookup_eq_none_iff]
  intro a ha
  have := h a ha
  simp only [bne_iff_ne, ne_eq]
  exact fun hc => this hc.symm

theorem mapM_none' {β γ : Type} {f : β → Option γ} {l : List β} {x : β} (hx : x ∈ l)
    (h : f x = none) : l.mapM f = none := by
  induction l with
  | nil => simp at hx
  | cons y l ih =>
    rw [List.mapM_cons]
    rcases List.mem_cons.1 hx with rfl | hx
    · rw [h]; rfl
    · rw [ih hx]
      cases f y <;> rfl

theorem mapM_congr' {β γ : Type} {f g : β → Option γ} {l : List β} (h : ∀ x ∈ l, f x = g x) :
    l.mapM f = l.mapM g := by
  induction l with
  | nil => rfl
  | cons y l ih =>
    rw [List.mapM_cons, List.mapM_cons, h y (by simp), ih fun x hx => h x (by simp [hx])]

theorem mapM_some' {β γ : Type} {f : β → Option γ} {g : β → γ} {l : List β}
    (h : ∀ x ∈ l, f x = some (g x)) : l.mapM f = some (l.map g) := by
  induction l with
  | nil => rfl
  | cons y l ih =>
    rw [List.mapM_cons, h y (by simp), ih fun x hx => h x (by simp [hx])]
    rfl

theorem lagged_append {p : ℕ} {l l' : List (ℤ × List K)} {g : ℤ} (h1 : ∀ c ∈ l, c.1 < g)
    (h2 : ∀ c ∈ l', g < c.1) : lagged p (l ++ l') = lagged p l ++ lagged p l' := by
  rw [lagged, List.filterMap_append, lagged, lagged]
  congr 1
  · apply List.filterMap_congr
    intro o ho
    congr 1
    apply mapM_congr'
    intro k _
    rw [lookup_append', lookup_none_of (l := l')]
    · simp
    · intro a ha
      have := h1 o ho
      have := h2 a ha
      omega
  · apply List.filterMap_congr
    intro o ho
    congr 1
    by_cases hk : ∃ k : ℕ, k < p ∧ o.1 - ((k : ℤ) + 1) ≤ g
    · obtain ⟨k, hk, hle⟩ := hk
      have ho' := h2 o ho
      have hmem : (o.1 - g - 1).toNat ∈ List.range p := by
        rw [List.mem_range]; omega
      have hg : o.1 - (((o.1 - g - 1).toNat : ℤ) + 1) = g := by omega
      rw [mapM_none' hmem, mapM_none' hmem]
      · rw [hg]
        exact lookup_none_of fun a ha => by have := h2 a ha; omega
      · rw [hg]
        apply lookup_none_of
        intro a ha
        rcases List.mem_append.1 ha with ha | ha
        · have := h1 a ha; omega
        · have := h2 a ha; omega
    · push Not at hk
      apply mapM_congr'
      intro k hkm
      rw [List.mem_range] at hkm
      have := hk k hkm
      rw [lookup_append', lookup_none_of (l := l)]
      · simp
      · intro a ha
        have := h1 a ha
        omega

/-- Times in a piece of a series without repeated times. -/
theorem chain_times {q : List (ℤ × List K)} (h1 : q.IsChain fun a b => b.1 - a.1 ≤ 1)
    (h2 : q.Pairwise fun a b => a.1 < b.1) (a : ℤ × List K) (ha : q.head? = some a) (i : ℕ)
    (hi : i < q.length) : q[i].1 = a.1 + i := by
  induction i with
  | zero =>
    cases q with
    | nil => simp at ha
    | cons b q => simp at ha; subst ha; simp
  | succ i ih =>
    have := ih (by omega)
    have h3 := List.isChain_iff_getElem.1 h1 i hi
    have h4 := List.pairwise_iff_getElem.1 h2 i (i + 1) (by omega) hi (by omega)
    push_cast
    omega

theorem lookup_piece {q : List (ℤ × List K)} {a : ℤ} (h : ∀ (i : ℕ) (hi : i < q.length), q[i].1 = a + i) :
    (∀ j : ℕ, q.lookup (a + j) = (q[j]?).map Prod.snd) ∧ ∀ t, t < a → q.lookup t = none := by
  induction q generalizing a with
  | nil => simp
  | cons b q ih =>
    have hb : b.1 = a := by
      have := h 0 (by simp)
      simp only [List.getElem_cons_zero] at this
      omega
    have ih' := ih (a := a + 1) (fun i hi => by
      have := h (i + 1) (by simpa using hi)
      simp only [List.getElem_cons_succ] at this
      rw [this]; push_cast; omega)
    obtain ⟨b, y⟩ := b
    simp only at hb
    subst hb
    constructor
    · intro j
      rw [List.lookup_cons]
      cases j with
      | zero => simp
      | succ j =>
        have : (b + ((j + 1 : ℕ) : ℤ) == b) = false := by
          rw [beq_eq_false_iff_ne]; push_cast; omega
        rw [this]
        simp only [List.getElem?_cons_succ]
        rw [← ih'.1 j]
        congr 1
        push_cast; omega
    · intro t ht
      rw [List.lookup_cons]
      have : (t == b) = false := by
        rw [beq_eq_false_iff_ne]; omega
      rw [this]
      exact ih'.2 t (by omega)

theorem filterMap_range {β : Type} (f : ℕ → β) (n p : ℕ) :
    (List.range n).filterMap (fun i => if p ≤ i then some (f i) else none) =
      (List.range (n - p)).map fun j => f (j + p) := by
  by_cases h : n ≤ p
  · rw [show n - p = 0 by omega]
    simp only [List.range_zero, List.map_nil, List.filterMap_eq_nil_iff, List.mem_range]
    intro i hi
    rw [if_neg (by omega)]
  · conv_lhs => rw [show n = p + (n - p) by omega, List.range_add, List.filterMap_append]
    rw [List.filterMap_eq_nil_iff.2, List.nil_append, List.filterMap_map]
    · rw [← List.filterMap_eq_map]
      apply List.filterMap_congr
      intro i _
      simp [Nat.add_comm]
    · intro i hi
      rw [List.mem_range] at hi
      rw [if_neg (by omega)]

theorem lagged_piece (p : ℕ) {q : List (ℤ × List K)} (h1 : q.IsChain fun a b => b.1 - a.1 ≤ 1)
    (h2 : q.Pairwise fun a b => a.1 < b.1) : lagged p q = windows p (q.map Prod.snd) := by
  cases q with
  | nil => simp [lagged, windows]
  | cons b q =>
    generalize hq : b :: q = l at *
    have hh : l.head? = some b := by rw [← hq]; rfl
    have ht := chain_times h1 h2 b hh
    obtain ⟨k1, k2⟩ := lookup_piece ht
    have hl : l = (List.range l.length).map fun i : ℕ => (b.1 + (i : ℤ), (l.map Prod.snd).getD i []) := by
      apply List.ext_getElem
      · simp
      · intro i h3 h4
        rw [List.getElem_map, List.getElem_range, List.getD_eq_getElem _ _ (by simpa using h3),
          List.getElem_map, ← ht i h3]
    rw [windows, List.length_map, ← filterMap_range
      (fun i => ((l.map Prod.snd).getD i [], (List.range p).flatMap fun k =>
        (l.map Prod.snd).getD (i - (k + 1)) []))]
    have key : ∀ F : ℤ × List K → Option (List K × List K), l.filterMap F =
        (List.range l.length).filterMap fun i : ℕ => F (b.1 + (i : ℤ), (l.map Prod.snd).getD i []) := by
      intro F
      conv_lhs => rw [hl]
      rw [List.filterMap_map]
      rfl
    unfold lagged
    rw [key]
    apply List.filterMap_congr
    intro i hi
    rw [List.mem_range] at hi
    split
    · rename_i hp
      rw [mapM_some' (g := fun k => (l.map Prod.snd).getD (i - (k + 1)) [])]
      · rfl
      · intro k hk
        rw [List.mem_range] at hk
        rw [show b.1 + (i : ℤ) - ((k : ℤ) + 1) = b.1 + ((i - (k + 1) : ℕ) : ℤ) by omega, k1,
          List.getElem?_eq_getElem (by omega), List.getD_eq_getElem _ _ (by simp; omega)]
        simp
    · rename_i hp
      rw [mapM_none' (x := i)]
      · rfl
      · rw [List.mem_range]; omega
      · exact k2 _ (by dsimp only; omega)

/-- The rows for one data frame without repeated times. -/
theorem lagged_eq (p : ℕ) {obs : List (ℤ × List K)} {pieces : List (List (ℤ × List K))}
    (hc : IsCutting obs pieces) (hs : obs.Pairwise fun a b => a.1 < b.1) :
    lagged p obs = pieces.flatMap fun q => windows p (q.map Prod.snd) := by
  by_cases hne : obs = []
  · subst hne
    have : ∀ q ∈ pieces, q = [] := List.flatten_eq_nil_iff.1 hc.together
    symm
    rw [show lagged p ([] : List (ℤ × List K)) = [] from rfl, List.flatMap_eq_nil_iff]
    intro q hq
    rw [this q hq]
    simp [windows]
  have hnil := hc.nonempty hne
  obtain ⟨h1, h2, h3, -⟩ := hc
  subst h1
  clear hne
  induction pieces with
  | nil => rfl
  | cons q pieces ih =>
    rw [List.flatten_cons, List.pairwise_append] at hs
    obtain ⟨hs1, hs2, hs3⟩ := hs
    rw [List.flatMap_cons, List.flatten_cons, ← lagged_piece p (h2 q (by simp)) hs1]
    have hih := ih (fun h => hnil (by simp [h])) (fun q hq => h2 q (by simp [hq]))
      (by cases pieces with
          | nil => exact .nil
          | cons q' pieces => exact (List.isChain_cons_cons.1 h3).2) hs2
    rw [← hih]
    cases pieces with
    | nil => simp [lagged]
    | cons q' pieces =>
      have hq : q ≠ [] := fun h => hnil (by simp [h])
      have hq' : q' ≠ [] := fun h => hnil (by simp [h])
      have hb := (List.isChain_cons_cons.1 h3).1 (q.getLast hq) (by rw [List.getLast?_eq_getLast_of_ne_nil hq]; rfl)
        (q'.head hq') (by rw [List.head?_eq_some_head hq']; rfl)
      refine lagged_append (g := (q.getLast hq).1 + 1) ?_ ?_
      · intro c hcm
        have : c.1 ≤ (q.getLast hq).1 := by
          rw [← List.dropLast_append_getLast hq] at hcm
          rcases List.mem_append.1 hcm with hcm | hcm
          · rw [← List.dropLast_append_getLast hq, List.pairwise_append] at hs1
            exact (hs1.2.2 c hcm _ (by simp)).le
          · simp at hcm; rw [hcm]
        omega
      · intro c hcm
        have : (q'.head hq').1 ≤ c.1 := by
          rw [List.flatten_cons] at hcm hs2
          have hx : q' ++ pieces.flatten = q'.head hq' :: (q'.tail ++ pieces.flatten) := by
            rw [← List.cons_append, List.cons_head_tail]
          rw [hx] at hcm hs2
          rcases List.mem_cons.1 hcm with rfl | hcm
          · exact le_refl _
          · exact (List.rel_of_pairwise_cons hs2 hcm).le
        omega

end

/-! ### C37 -/

section
variable {C T K : Type} [DecidableEq C] [DecidableEq T]

theorem insertionSort_eq_iff (l : List ℤ) :
    l.insertionSort (· ≤ ·) = l ↔ l.Pairwise (· ≤ ·) := by
  constructor
  · intro h
    rw [← h]
    exact List.pairwise_insertionSort _ _
  · intro h
    exact h.insertionSort_eq

/-- What is checked of one entry. -/
def EntryOk (numeric : T → Bool) (columns : Option (List C)) (df : Frame C T K) (e : Entry C T K) :
    Prop :=
  ∃ t, e = .frame t ∧ (∀ d ∈ t.dtypes, numeric d = true) ∧ t.cols = df.cols ∧ t.dtypes = df.dtypes ∧
    t.index.Pairwise (· ≤ ·) ∧ t.indexInt = true ∧ ∀ cs, columns = some cs → ∀ c ∈ cs, c ∈ t.cols

theorem checkEntry_ok (numeric : T → Bool) (columns : Option (List C)) (df : Frame C T K)
    (e : Entry C T K) : checkEntry numeric columns df e = .ok () ↔ EntryOk numeric columns df e := by
  cases e with
  | other => simp [checkEntry, EntryOk]
  | frame t =>
    have : EntryOk numeric columns df (.frame t) ↔ (∀ d ∈ t.dtypes, numeric d = true) ∧
        t.cols = df.cols ∧ t.dtypes = df.dtypes ∧ t.index.Pairwise (· ≤ ·) ∧ t.indexInt = true ∧
        ∀ cs, columns = some cs → ∀ c ∈ cs, c ∈ t.cols := by
      constructor
      · rintro ⟨t', h, h'⟩
        injection h with h
        subst h
        exact h'
      · intro h
        exact ⟨t, rfl, h⟩
    rw [this]
    simp only [checkEntry]
    split_ifs with h1 h2 h3 h4
    · refine ⟨fun h => by simp at h, fun h => ?_⟩
      obtain ⟨d, hd, hn⟩ := List.any_eq_true.1 h1
      rw [h.1 d hd] at hn
      simp at hn
    · refine ⟨fun h => by simp at h, fun h => ?_⟩
      rcases h2 with h2 | h2
      · exact absurd h.2.1.symm h2
      · exact absurd h.2.2.1.symm h2
    · refine ⟨fun h => by simp at h, fun h => ?_⟩
      exact absurd ((insertionSort_eq_iff _).2 h.2.2.2.1) h3
    · refine ⟨fun h => by simp at h, fun h => ?_⟩
      rw [h.2.2.2.2.1] at h4
      simp at h4
    · push Not at h2
      rw [not_not, insertionSort_eq_iff] at h3
      have h1' : ∀ d ∈ t.dtypes, numeric d = true := by simpa using h1
      have h4' : t.indexInt = true := by simpa using h4
      cases columns with
      | none =>
        simp only [true_iff]
        exact ⟨h1', h2.1.symm, h2.2.symm, h3, h4', by simp⟩
      | some cs =>
        simp only
        split_ifs with h5
        · refine ⟨fun h => by simp at h, fun h => ?_⟩
          obtain ⟨c, hc, hn⟩ := List.any_eq_true.1 h5
          have := h.2.2.2.2.2 cs rfl c hc
          simp [this] at hn
        · simp only [true_iff]
          refine ⟨h1', h2.1.symm, h2.2.symm, h3, h4', ?_⟩
          rintro _ ⟨⟩ c hc
          by_contra hn
          exact h5 (List.any_eq_true.2 ⟨c, hc, by simpa using hn⟩)

theorem forM_ok {β : Type} (f : β → Except Err Unit) (l : List β) :
    l.forM f = .ok () ↔ ∀ x ∈ l, f x = .ok () := by
  induction l with
  | nil => simp [pure, Except.pure]
  | cons x l ih =>
    change (f x >>= fun _ => l.forM f) = _ ↔ _
    cases h : f x with
    | error e => simp [bind, Except.bind, h]
    | ok u =>
      simp only [bind, Except.bind, List.mem_cons, forall_eq_or_imp, h, true_and]
      exact ih

/-- The check accepts exactly the good inputs. -/
theorem checkInput_ok (numeric : T → Bool) (columns : Option (List C)) (ts : List (Entry C T K)) :
    checkInput numeric columns ts = .ok () ↔ Good numeric columns ts := by
  cases ts with
  | nil => simp [checkInput, Good]
  | cons e rest =>
    cases e with
    | other => simp [checkInput, Good]
    | frame df =>
      have : checkInput numeric columns (.frame df :: rest) =
        (Entry.frame df :: rest).forM (checkEntry numeric columns df) := rfl
      rw [this, forM_ok]
      constructor
      · intro h
        exact ⟨df, rest, rfl, fun e he => (checkEntry_ok _ _ _ _).1 (h e he)⟩
      · rintro ⟨df', rest', h, h'⟩ e he
        injection h with h1 h2
        injection h1 with h1
        subst h1
        exact (checkEntry_ok _ _ _ _).2 (h' e he)

/-- **C37**, fitting: it succeeds exactly for good input and then remembers the columns of the first
frame; otherwise it raises `ValueError` or `TypeError` and changes nothing. -/
theorem fit_ok_iff (numeric : T → Bool) (s : Trans C) (ts : List (Entry C T K)) (r : Bool) :
    ((fit numeric s ts r).2 = .ok () ↔ Good numeric s.columns ts) ∧
      (∀ df rest, ts = .frame df :: rest → (fit numeric s ts r).2 = .ok () →
        (fit numeric s ts r).1 = ⟨s.p, some df.cols, some r⟩) ∧
      ((fit numeric s ts r).2 ≠ .ok () → (fit numeric s ts r).1 = s) := by
  rw [← checkInput_ok]
  cases h : checkInput numeric s.columns ts with
  | error e => simp [fit, h]
  | ok u =>
    obtain ⟨df, rest, rfl, -⟩ := (checkInput_ok _ _ _).1 h
    simp only [fit, h, true_iff, ne_eq, not_true_eq_false, false_implies, and_true, true_and]
    rintro _ _ ⟨⟩ _
    rfl

/-- What happens to an unfitted transformer. -/
theorem transform_unfitted (numeric : T → Bool) (s : Trans C) (hs : s.columns = none)
    (ts : List (Entry C T K)) : transform numeric s ts = .error .notFitted := by
  rw [transform, hs]

/-- Only these errors come from the checks. -/
theorem checkInput_error {numeric : T → Bool} {columns : Option (List C)} {ts : List (Entry C T K)}
    {e : Err} (h : checkInput numeric columns ts = .error e) : e = .valueError ∨ e = .typeError := by
  have hE : ∀ df (x : Entry C T K), checkEntry numeric columns df x = .error e →
      e = .valueError ∨ e = .typeError := by
    intro df x hx
    cases x with
    | other => simp only [checkEntry, Except.error.injEq] at hx; simp [← hx]
    | frame t =>
      simp only [checkEntry] at hx
      split_ifs at hx
      · injection hx with hx; simp [← hx]
      · injection hx with hx; simp [← hx]
      · injection hx with hx; simp [← hx]
      · injection hx with hx; simp [← hx]
      · cases columns with
        | none => simp at hx
        | some cs =>
          simp only at hx
          split_ifs at hx
          injection hx with hx; simp [← hx]
  have hF : ∀ df (l : List (Entry C T K)), l.forM (checkEntry numeric columns df) = .error e →
      e = .valueError ∨ e = .typeError := by
    intro df l
    induction l with
    | nil => intro h; simp [pure, Except.pure] at h
    | cons x l ih =>
      change (checkEntry numeric columns df x >>= fun _ => l.forM _) = _ → _
      cases hx : checkEntry numeric columns df x with
      | error e' =>
        intro h
        simp only [bind, Except.bind, Except.error.injEq] at h
        subst h
        exact hE df x hx
      | ok u => intro h; exact ih h
  cases ts with
  | nil => simp only [checkInput, Except.error.injEq] at h; simp [← h]
  | cons x rest =>
    cases x with
    | other => simp only [checkInput, Except.error.injEq] at h; simp [← h]
    | frame df => exact hF df _ h

/-- The frames of the input. -/
def framesOf (ts : List (Entry C T K)) : List (Frame C T K) :=
  ts.filterMap fun
    | .other => none
    | .frame t => some t

theorem cutAll_ne_nil {α : Type} {ts : List (List ℤ × List α)} (h : ts ≠ []) : cutAll ts ≠ [] := by
  cases ts with
  | nil => exact absurd rfl h
  | cons t ts =>
    rw [cutAll, List.flatMap_cons]
    have : cut t.1 t.2 ≠ [] := by
      rw [cut_eq]
      cases h : cutPoints 0 t.1 <;> simp [consec]
    simp [this]

/-- What `transform` computes: **C36** and **C37**.  A fitted transformer with `p ≥ 1` accepts exactly
the good inputs.  The pieces of all frames, in order, give the rows. -/
theorem transform_correct (numeric : T → Bool) (s : Trans C) {columns : List C}
    (hs : s.columns = some columns) (hp : s.p ≠ 0) (ts : List (Entry C T K))
    (hwf : ∀ t ∈ framesOf ts, t.WF) :
    (¬ Good numeric s.columns ts → transform numeric s ts = .error .valueError ∨
      transform numeric s ts = .error .typeError) ∧
    (Good numeric s.columns ts → ∃ X Xlags : List (List K), X.length = Xlags.length ∧
      (∃ pieces : List (List (List (ℤ × List K))),
        List.Forall₂ (fun t ps => IsCutting (t.obs columns) ps) (framesOf ts) pieces ∧
        X.length = (pieces.flatten.map fun q => q.length - s.p).sum ∧
        X.zip Xlags = pieces.flatten.flatMap (fun q => windows s.p (q.map Prod.snd))) ∧
      (s.returnDf ≠ some true → transform numeric s ts = .ok (.arrays X Xlags)) ∧
      (s.returnDf = some true → transform numeric s ts =
        .ok (.df (lagNames columns s.p) ((X.zip Xlags).map fun r => r.1 ++ r.2)))) := by
  constructor
  · intro hg
    rw [← checkInput_ok] at hg
    rw [transform, hs]
    simp only
    rw [hs] at hg
    cases h : checkInput numeric (some columns) ts with
    | ok u => exact absurd h hg
    | error e =>
      rcases checkInput_error h with rfl | rfl
      · left; rfl
      · right; rfl
  · intro hg
    have hne : ts ≠ [] := by
      obtain ⟨df, rest, rfl, -⟩ := hg
      simp
    have hall : ∀ e ∈ ts, ∃ t, e = .frame t := by
      obtain ⟨df, rest, -, h⟩ := hg
      intro e he
      obtain ⟨t, ht, -⟩ := h e he
      exact ⟨t, ht⟩
    have hts : ts = (framesOf ts).map Entry.frame := by
      clear hg hne hwf
      induction ts with
      | nil => rfl
      | cons e ts ih =>
        obtain ⟨t, rfl⟩ := hall e (by simp)
        rw [framesOf, List.filterMap_cons, List.map_cons, ← framesOf, ← ih fun e he => hall e (by simp [he])]
    obtain ⟨X, Xlags, hc, hlen, -, hzip⟩ := convert_correct hp
      (cutAll_ne_nil (ts := ts.map (select columns)) (by simpa using hne))
    refine ⟨X, Xlags, hlen, ?_, ?_, ?_⟩
    · suffices h : X.zip Xlags = ((framesOf ts).map fun t => cutRec (t.obs columns)).flatten.flatMap
          (fun q => windows s.p (q.map Prod.snd)) by
        refine ⟨(framesOf ts).map fun t => cutRec (t.obs columns), ?_, ?_, h⟩
        · rw [List.forall₂_map_right_iff, List.forall₂_same]
          intro t _
          exact cutRec_isCutting _
        · have := congrArg List.length h
          rw [List.length_zip, ← hlen, Nat.min_self] at this
          rw [this, List.length_flatMap]
          simp [windows]
      · rw [hzip]
        conv_lhs => rw [hts]
        rw [cutAll, List.map_map, List.flatMap_map, List.flatMap_assoc, ← List.flatMap_def,
          List.flatMap_assoc]
        rw [List.flatMap_def, List.flatMap_def]
        congr 1
        apply List.map_congr_left
        intro t ht
        simp only [Function.comp, select]
        rw [cut_eq_cutRec _ _ (by simpa using (hwf t ht).1), List.flatMap_map]
        rfl
    · intro hr
      rw [transform, hs]
      simp only
      rw [hs] at hg
      rw [(checkInput_ok _ _ _).2 hg]
      simp only [hc]
      rw [if_neg hr]
    · intro hr
      rw [transform, hs]
      simp only
      rw [hs] at hg
      rw [(checkInput_ok _ _ _).2 hg]
      simp only [hc]
      rw [if_pos hr, List.zip, List.map_zipWith]

/-- **C36** in terms of time: when no time occurs twice in a frame, the rows are, for every
observation with observations 1, …, `p` time steps earlier, that observation next to these. -/
theorem transform_time (numeric : T → Bool) (s : Trans C) {columns : List C}
    (hs : s.columns = some columns) (hp : s.p ≠ 0) (ts : List (Entry C T K))
    (hwf : ∀ t ∈ framesOf ts, t.WF) (hg : Good numeric s.columns ts)
    (hstrict : ∀ t ∈ framesOf ts, t.index.Pairwise (· < ·)) :
    ∃ X Xlags : List (List K), X.length = Xlags.length ∧
      X.zip Xlags = (framesOf ts).flatMap (fun t => lagged s.p (t.obs columns)) ∧
      (s.returnDf ≠ some true → transform numeric s ts = .ok (.arrays X Xlags)) ∧
      (s.returnDf = some true → transform numeric s ts =
        .ok (.df (lagNames columns s.p) ((X.zip Xlags).map fun r => r.1 ++ r.2))) := by
  obtain ⟨X, Xlags, h1, ⟨pieces, h2, -, h3⟩, h4⟩ := (transform_correct numeric s hs hp ts hwf).2 hg
  refine ⟨X, Xlags, h1, ?_, h4⟩
  rw [h3]
  clear h1 h3 h4 hg X Xlags
  generalize framesOf ts = fr at *
  induction h2 with
  | nil => rfl
  | @cons t ps fs pieces ht _ ih =>
    rw [List.flatten_cons, List.flatMap_append, List.flatMap_cons,
      ih (fun t h => hwf t (by simp [h])) (fun t h => hstrict t (by simp [h]))]
    congr 1
    rw [lagged_eq s.p ht]
    have hz : (t.obs columns).map Prod.fst = t.index := by
      rw [Frame.obs, List.map_fst_zip]
      simpa using (hwf t (by simp)).1.le
    have := hstrict t (by simp)
    rw [← hz, List.pairwise_map] at this
    exact this

/-- With `p = 0` there is no result. -/
theorem transform_zero (numeric : T → Bool) (s : Trans C) (hp : s.p = 0) (ts : List (Entry C T K)) :
    ∃ e, transform numeric s ts = .error e := by
  rw [transform]
  cases s.columns with
  | none => exact ⟨_, rfl⟩
  | some cs =>
    simp only
    cases checkInput numeric (some cs) ts with
    | error e => exact ⟨_, rfl⟩
    | ok u =>
      simp only [convert, hp, or_true, if_true]
      exact ⟨_, rfl⟩

/-- The names of the columns with `return_df`: cell `i + d * l` of a row (with `d` columns, `i < d`)
is column `i` at lag `l`, and so is its name. -/
theorem lagNames_get (columns : List C) (p : ℕ) (l i : ℕ) (hl : l ≤ p) (hi : i < columns.length) :
    (lagNames columns p)[i + columns.length * l]? = some (columns[i], l) := by
  have h0 : lagNames columns p = (List.range (p + 1)).flatMap fun l => columns.map fun c => (c, l) := by
    rw [List.range_succ_eq_map, List.flatMap_cons, List.flatMap_map, lagNames]
  have : ∀ (n : ℕ) (f : ℕ → ℕ), l < n → ((List.range n).flatMap fun l => columns.map fun c => (c, f l))[i + columns.length * l]? =
      some (columns[i], f l) := by
    intro n
    induction l generalizing n with
    | zero =>
      intro f hn
      obtain ⟨n, rfl⟩ : ∃ m, n = m + 1 := ⟨n - 1, by omega⟩
      rw [List.range_succ_eq_map, List.flatMap_cons, List.getElem?_append_left (by simpa using hi)]
      simp [hi]
    | succ l ih =>
      intro f hn
      obtain ⟨n, rfl⟩ : ∃ m, n = m + 1 := ⟨n - 1, by omega⟩
      rw [List.range_succ_eq_map, List.flatMap_cons, List.getElem?_append_right (by
        rw [List.length_map]; rw [Nat.mul_succ]; omega), List.flatMap_map]
      rw [List.length_map, show i + columns.length * (l + 1) - columns.length = i + columns.length * l by
        rw [Nat.mul_succ]; omega]
      exact ih (by omega) n (fun l => f (l + 1)) (by omega)
  rw [h0]
  exact this (p + 1) id (by omega)

end

/-! ### Witnesses -/

/-- Two columns, a gap between times 3 and 7. -/
def exFrame : Frame String Unit ℕ :=
  ⟨["a", "b"], [(), ()], true, [1, 2, 3, 7, 8, 9],
    (List.range 6).map fun i c => if c = "a" then i else 10 + i⟩

def exTrans : Trans String := ⟨2, none, none⟩

def exNum : Unit → Bool := fun _ => true

/-- Fitting then transforming a frame with a gap. -/
example : (fit exNum exTrans [.frame exFrame] false).2 = .ok () := by decide +kernel

def exOut : Option (List (List ℕ) × List (List ℕ)) :=
  match transform exNum (fit exNum exTrans [.frame exFrame] false).1 [.frame exFrame] with
  | .ok (.arrays X Xl) => some (X, Xl)
  | _ => none

example : exOut = some ([[2, 12], [5, 15]], [[1, 11, 0, 10], [4, 14, 3, 13]]) := by decide +kernel

theorem exFrame_good : Good exNum none [.frame exFrame] ∧ exFrame.WF ∧
    exFrame.index.Pairwise (· < ·) := by
  refine ⟨(checkInput_ok _ _ _).1 (by decide +kernel), ⟨by decide +kernel, by decide +kernel⟩, by decide +kernel⟩

/-- A refit with other columns is refused: the columns of the first fit are still required. -/
theorem refit_other_columns :
    (fit exNum (fit exNum exTrans [.frame exFrame] true).1
      [.frame { exFrame with cols := ["c", "d"] }] true).2 = .error .valueError := by decide +kernel

/-- An index with a repeated time is accepted, and rows with the same time count as one step apart:
the hypothesis of `transform_time` is needed. -/
theorem repeated_time :
    (match transform exNum ⟨1, some ["a"], some false⟩
      [.frame (⟨["a"], [()], true, [4, 4], [fun _ => 1, fun _ => 2]⟩ : Frame String Unit ℕ)] with
    | .ok (.arrays X Xl) => some (X, Xl)
    | _ => none) = some ([[2]], [[1]]) := by decide +kernel

end Verif.Transform
