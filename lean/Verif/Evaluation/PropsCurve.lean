import Verif.Evaluation.Spec
import Mathlib.Tactic.Ring
import Mathlib.Tactic.Linarith
import Mathlib.Tactic.FieldSimp
import Mathlib.Tactic.Push
import Mathlib.Algebra.BigOperators.Group.List.Basic
import Mathlib.Algebra.Order.BigOperators.Group.List

/-!
# The ROC curve and the area under it
-/

namespace Verif.Evaluation

open Verif.Network Verif.Str

section
variable {K : Type} [Field K] [LinearOrder K] [IsStrictOrderedRing K]

/-- A point with numbers as coordinates. -/
def cast (p : ℕ × ℕ) : K × K := ((p.1 : K), (p.2 : K))

/-- The area between two points. -/
def seg (p q : K × K) : K := (q.1 - p.1) * (p.2 + q.2) / 2

theorem trapz_cons₂ (p q : K × K) (l : List (K × K)) : trapz (p :: q :: l) = seg p q + trapz (q :: l) := rfl

theorem seg_line {a b c : K × K} {k : K} (h1 : b.1 - a.1 = k * (c.1 - b.1)) (h2 : b.2 - a.2 = k * (c.2 - b.2)) :
    seg a c = seg a b + seg b c := by
  unfold seg
  have e1 : a.1 = b.1 - k * (c.1 - b.1) := by linarith
  have e2 : a.2 = b.2 - k * (c.2 - b.2) := by linarith
  rw [e1, e2]
  ring

theorem trapz_dropFrom (l : List (ℕ × ℕ)) : ∀ (a p : ℕ × ℕ), (l = [] → a = p) →
    (∀ q ∈ l.head?, ∃ k : K, (p.1 : K) - a.1 = k * ((q.1 : K) - p.1) ∧ (p.2 : K) - a.2 = k * ((q.2 : K) - p.2)) →
    trapz ((a :: dropFrom p l).map (cast (K := K))) = seg (cast a) (cast p) + trapz ((p :: l).map cast) := by
  induction l with
  | nil =>
    intro a p h _
    rw [h rfl, dropFrom]
    simp [trapz, seg]
    intro q r l h; cases h
  | cons q l ih =>
    intro a p _ h
    obtain ⟨k, h1, h2⟩ := h q rfl
    have hline : seg (cast (K := K) a) (cast q) = seg (cast a) (cast p) + seg (cast p) (cast q) :=
      seg_line h1 h2
    cases l with
    | nil =>
      rw [show dropFrom p [q] = [q] from rfl]
      simp only [List.map_cons, List.map_nil, trapz_cons₂]
      rw [hline]
      ring
    | cons r l =>
      rw [dropFrom]
      split
      · rename_i hd
        rw [ih a q (by simp)]
        · rw [hline]
          simp only [List.map_cons, trapz_cons₂]
          ring
        · intro r' hr'
          cases hr'
          have e1 : (p.1 : K) + r.1 = 2 * q.1 := by exact_mod_cast hd.1
          have e2 : (p.2 : K) + r.2 = 2 * q.2 := by exact_mod_cast hd.2
          have f1 : (r.1 : K) - q.1 = q.1 - p.1 := by linarith
          have f2 : (r.2 : K) - q.2 = q.2 - p.2 := by linarith
          refine ⟨1 + k, ?_, ?_⟩
          · rw [f1]; linarith
          · rw [f2]; linarith
      · rw [List.map_cons, List.map_cons, trapz_cons₂, ← List.map_cons, ih q q (by simp)]
        · rw [hline]
          simp only [List.map_cons, trapz_cons₂, seg]
          ring
        · intro r' _
          exact ⟨0, by simp, by simp⟩

/-- Dropping the intermediate points does not change the area. -/
theorem trapz_drop (o : ℕ × ℕ) (l : List (ℕ × ℕ)) :
    trapz ((o :: dropIntermediate l).map (cast (K := K))) = trapz ((o :: l).map cast) := by
  cases l with
  | nil => rfl
  | cons p l =>
    rw [dropIntermediate]
    simp only [List.map_cons, trapz_cons₂]
    have := trapz_dropFrom (K := K) l p p (by simp) (fun q _ => ⟨0, by simp, by simp⟩)
    simp only [List.map_cons] at this
    rw [this]
    simp [seg]

theorem dropFrom_sublist (l : List (ℕ × ℕ)) : ∀ p, (dropFrom p l).Sublist l := by
  induction l with
  | nil => intro p; exact List.Sublist.refl _
  | cons q l ih =>
    intro p
    cases l with
    | nil => exact List.Sublist.refl _
    | cons r l =>
      rw [dropFrom]
      split
      · exact (ih q).cons _
      · exact (ih q).cons_cons _

theorem dropIntermediate_sublist (l : List (ℕ × ℕ)) : (dropIntermediate l).Sublist l := by
  cases l with
  | nil => exact List.Sublist.refl _
  | cons p l => exact (dropFrom_sublist l p).cons_cons _

theorem dropFrom_getLast (l : List (ℕ × ℕ)) : ∀ p, (dropFrom p l).getLast? = l.getLast? := by
  induction l with
  | nil => intro p; rfl
  | cons q l ih =>
    intro p
    cases l with
    | nil => rfl
    | cons r l =>
      rw [dropFrom]
      split
      · rw [ih q, List.getLast?_cons_cons]
      · rw [List.getLast?_cons, ih q, List.getLast?_cons_cons, List.getLast?_cons]
        rfl

theorem dropIntermediate_getLast (l : List (ℕ × ℕ)) : (dropIntermediate l).getLast? = l.getLast? := by
  cases l with
  | nil => rfl
  | cons p l => rw [dropIntermediate, List.getLast?_cons, dropFrom_getLast, List.getLast?_cons]

/-! ### Thresholds -/

theorem thresholds_sorted (s : List K) : (thresholds s).Pairwise (· > ·) := by
  have h1 : (thresholds s).Pairwise (· ≥ ·) := List.pairwise_insertionSort _ _
  have h2 : (thresholds s).Nodup := (List.perm_insertionSort _ _).nodup_iff.2 (List.nodup_dedup s)
  exact (List.Pairwise.and h1 h2).imp fun h => lt_of_le_of_ne h.1 h.2.symm

theorem mem_thresholds {s : List K} {x : K} : x ∈ thresholds s ↔ x ∈ s := by
  unfold thresholds
  rw [(List.perm_insertionSort _ _).mem_iff, List.mem_dedup]

theorem clfCurve_eq (y : List ℕ) (s : List K) : clfCurve y s = (thresholds s).map fun t =>
    ((negatives y s).countP (t ≤ ·), (positives y s).countP (t ≤ ·)) := by
  unfold clfCurve
  refine List.map_congr_left fun t _ => ?_
  unfold negatives positives
  simp only [List.countP_map, List.countP_filter]
  refine Prod.ext ?_ ?_ <;> refine List.countP_congr fun q _ => ?_ <;> simp [and_comm]

theorem mem_positives {y : List ℕ} {s : List K} {x : K} (h : x ∈ positives y s) : x ∈ s := by
  obtain ⟨q, hq, rfl⟩ := List.mem_map.1 h
  exact (List.of_mem_zip (List.mem_filter.1 hq).1).2

theorem mem_negatives {y : List ℕ} {s : List K} {x : K} (h : x ∈ negatives y s) : x ∈ s := by
  obtain ⟨q, hq, rfl⟩ := List.mem_map.1 h
  exact (List.of_mem_zip (List.mem_filter.1 hq).1).2

/-! ### The area of the whole curve -/

theorem countP_le_eq (l : List K) (t : K) :
    l.countP (t ≤ ·) = l.countP (t < ·) + l.count t := by
  induction l with
  | nil => rfl
  | cons x l ih =>
    rw [List.countP_cons, List.countP_cons, List.count_cons, ih]
    rcases lt_trichotomy t x with h | rfl | h
    · simp [h, h.le, h.ne']; omega
    · simp; omega
    · simp [h.not_gt, h.not_ge, h.ne]

/-- What a negative case with score `n` contributes. -/
def gain (pos : List K) (n : K) : K := (pos.countP (n < ·) : ℕ) + (pos.count n : ℕ) / 2

theorem area_aux (pos neg : List K) (ts : List K) (hs : ts.Pairwise (· > ·))
    (hc : ∀ x ∈ pos ++ neg, x ∈ ts ∨ ∀ t ∈ ts, t < x) : ∀ t₀, ts.head? = some t₀ →
    trapz ((((neg.countP (t₀ < ·), pos.countP (t₀ < ·)) : ℕ × ℕ) ::
      ts.map fun t => (neg.countP (t ≤ ·), pos.countP (t ≤ ·))).map (cast (K := K))) =
      (ts.map fun t => (neg.count t : K) * gain pos t).sum := by
  induction ts with
  | nil => intro t₀ h; cases h
  | cons t ts ih =>
    intro t₀ h0
    cases h0
    rw [List.map_cons, List.map_cons, List.map_cons, trapz_cons₂, List.map_cons, List.sum_cons]
    congr 1
    · simp only [seg, cast, gain]
      rw [countP_le_eq neg t, countP_le_eq pos t]
      push_cast
      ring
    · cases ts with
      | nil => simp [trapz]
      | cons t' ts =>
        rw [List.pairwise_cons] at hs
        have hc' : ∀ x ∈ pos ++ neg, x ∈ t' :: ts ∨ ∀ u ∈ t' :: ts, u < x := by
          intro x hx
          rcases hc x hx with h | h
          · rcases List.mem_cons.1 h with rfl | h
            · exact Or.inr fun u hu => hs.1 u hu
            · exact Or.inl h
          · exact Or.inr fun u hu => h u (List.mem_cons_of_mem _ hu)
        have hgt : ∀ x ∈ pos ++ neg, t ≤ x ↔ t' < x := by
          intro x hx
          have htt' : t' < t := hs.1 t' List.mem_cons_self
          constructor
          · intro h; exact lt_of_lt_of_le htt' h
          · intro h
            rcases hc x hx with h' | h'
            · rcases List.mem_cons.1 h' with rfl | h'
              · exact le_refl _
              · rcases List.mem_cons.1 h' with rfl | h'
                · exact absurd h (lt_irrefl _)
                · have := (List.pairwise_cons.1 hs.2).1 x h'
                  exact absurd h (not_lt.2 (le_of_lt this))
            · exact (h' t List.mem_cons_self).le
        have e1 : neg.countP (t ≤ ·) = neg.countP (t' < ·) :=
          List.countP_congr fun x hx => by simpa using hgt x (List.mem_append_right _ hx)
        have e2 : pos.countP (t ≤ ·) = pos.countP (t' < ·) :=
          List.countP_congr fun x hx => by simpa using hgt x (List.mem_append_left _ hx)
        rw [← List.map_cons, e1, e2]
        exact ih hs.2 hc' t' rfl

theorem sum_count {neg ts : List K} (hn : ts.Nodup) (hs : ∀ x ∈ neg, x ∈ ts) (g : K → K) :
    (ts.map fun t => (neg.count t : K) * g t).sum = (neg.map g).sum := by
  induction neg with
  | nil => simp
  | cons n neg ih =>
    rw [List.map_cons, List.sum_cons, ← ih fun x hx => hs x (List.mem_cons_of_mem _ hx)]
    have : (ts.map fun t => ((n :: neg).count t : K) * g t) =
        ts.map fun t => (if n = t then g t else 0) + (neg.count t : K) * g t := by
      refine List.map_congr_left fun t _ => ?_
      rw [List.count_cons]
      by_cases h : n = t
      · simp [h]; ring
      · simp [h]
    rw [this, List.sum_map_add]
    congr 1
    clear this ih
    have hm := hs n List.mem_cons_self
    clear hs
    induction ts with
    | nil => cases hm
    | cons t ts ih =>
      rw [List.nodup_cons] at hn
      rw [List.map_cons, List.sum_cons]
      rcases List.mem_cons.1 hm with rfl | hm
      · rw [if_pos rfl]
        have : (ts.map fun t => if n = t then g t else 0) = ts.map fun _ => (0 : K) :=
          List.map_congr_left fun t ht => if_neg fun h : n = t => hn.1 (h ▸ ht)
        rw [this]
        simp
      · rw [if_neg fun h : n = t => hn.1 (h ▸ hm), ih hn.2 hm, zero_add]

theorem gain_eq (pos : List K) (n : K) : gain pos n = (pos.map fun p => wins p n).sum := by
  induction pos with
  | nil => simp [gain]
  | cons p pos ih =>
    rw [List.map_cons, List.sum_cons, ← ih]
    unfold gain wins
    rw [List.countP_cons, List.count_cons]
    rcases lt_trichotomy n p with h | rfl | h
    · simp [h, h.ne']; ring
    · simp; ring
    · simp [h.not_gt, h.ne, h.ne']

theorem sum_swap (pos neg : List K) (w : K → K → K) :
    (neg.map fun n => (pos.map fun p => w p n).sum).sum = (pos.map fun p => (neg.map fun n => w p n).sum).sum := by
  induction neg with
  | nil => simp
  | cons n neg ih =>
    simp only [List.map_cons, List.sum_cons]
    rw [ih, List.sum_map_add]

/-- The area under the curve of counts. -/
theorem area_counts (y : List ℕ) (s : List K) :
    trapz (((0, 0) :: dropIntermediate (clfCurve y s)).map (cast (K := K))) =
      ((positives y s).map fun p => ((negatives y s).map fun n => wins p n).sum).sum := by
  rw [trapz_drop, clfCurve_eq]
  have hall : ∀ x ∈ positives y s ++ negatives y s, x ∈ thresholds s := by
    intro x hx
    rcases List.mem_append.1 hx with h | h
    · exact mem_thresholds.2 (mem_positives h)
    · exact mem_thresholds.2 (mem_negatives h)
  have hs := thresholds_sorted s
  cases hts : (thresholds s).head? with
  | none =>
    rw [List.head?_eq_none_iff] at hts
    have : positives y s = [] := List.eq_nil_iff_forall_not_mem.2 fun x hx => by
      have := hall x (List.mem_append_left _ hx)
      rw [hts] at this; cases this
    rw [this, hts]
    rfl
  | some t₀ =>
    have htop : ∀ x ∈ positives y s ++ negatives y s, ¬ t₀ < x := by
      intro x hx
      have := hall x hx
      obtain ⟨ts, hts⟩ : ∃ ts, thresholds s = t₀ :: ts := List.head?_eq_some_iff.1 hts
      rw [hts] at this hs
      rcases List.mem_cons.1 this with rfl | h
      · exact lt_irrefl _
      · exact not_lt.2 ((List.pairwise_cons.1 hs).1 x h).le
    have e1 : (negatives y s).countP (t₀ < ·) = 0 := List.countP_eq_zero.2 fun x hx => by
      simpa using htop x (List.mem_append_right _ hx)
    have e2 : (positives y s).countP (t₀ < ·) = 0 := List.countP_eq_zero.2 fun x hx => by
      simpa using htop x (List.mem_append_left _ hx)
    have := area_aux (positives y s) (negatives y s) (thresholds s) hs (fun x hx => Or.inl (hall x hx)) t₀ hts
    rw [e1, e2] at this
    rw [this, sum_count (hs.imp fun h => h.ne') (fun x hx => hall x (List.mem_append_right _ hx)), ← sum_swap]
    congr 1
    exact List.map_congr_left fun n _ => gain_eq _ n

theorem trapz_scale (l : List (ℕ × ℕ)) (a b : K) :
    trapz (l.map fun p => ((p.1 : K) / a, (p.2 : K) / b)) = trapz (l.map cast) / (a * b) := by
  induction l with
  | nil => simp [trapz]
  | cons p l ih =>
    cases l with
    | nil => simp [trapz]
    | cons q l =>
      simp only [List.map_cons, trapz_cons₂] at ih ⊢
      rw [ih, add_div]
      congr 1
      simp only [seg, cast]
      ring

theorem mapM_some_pairs (l : List (K × K)) : numbers (l.map fun p => (some p.1, some p.2)) = some l := by
  unfold numbers
  induction l with
  | nil => rfl
  | cons p l ih => rw [List.map_cons, List.mapM_cons, ih]; rfl

theorem sum_bounds (pos : List K) {b : K} (f : K → K) (h : ∀ p ∈ pos, 0 ≤ f p ∧ f p ≤ b) :
    0 ≤ (pos.map f).sum ∧ (pos.map f).sum ≤ pos.length * b := by
  induction pos with
  | nil => simp
  | cons p pos ih =>
    obtain ⟨h1, h2⟩ := ih fun q hq => h q (List.mem_cons_of_mem _ hq)
    obtain ⟨h3, h4⟩ := h p List.mem_cons_self
    rw [List.map_cons, List.sum_cons, List.length_cons]
    push_cast
    constructor
    · linarith
    · linarith

theorem wins_bounds (p n : K) : 0 ≤ wins p n ∧ wins p n ≤ 1 := by
  unfold wins
  split
  · exact ⟨zero_le_one, le_refl _⟩
  · split
    · constructor <;> norm_num
    · exact ⟨le_refl _, zero_le_one⟩

theorem rankProbability_bounds (pos neg : List K) :
    0 ≤ rankProbability pos neg ∧ rankProbability pos neg ≤ 1 := by
  have h1 : ∀ p ∈ pos, 0 ≤ (neg.map fun n => wins p n).sum ∧ (neg.map fun n => wins p n).sum ≤ neg.length := by
    intro p _
    have := sum_bounds neg (b := 1) (fun n => wins p n) fun n _ => wins_bounds p n
    rwa [mul_one] at this
  obtain ⟨h2, h3⟩ := sum_bounds pos _ h1
  unfold rankProbability
  have h0 : (0 : K) ≤ pos.length * neg.length := by positivity
  exact ⟨div_nonneg h2 h0, div_le_one_of_le₀ h3 h0⟩

theorem clfCurve_last {y : List ℕ} {s : List K} (hp : s ≠ []) :
    (clfCurve y s).getLast? = some ((negatives y s).length, (positives y s).length) := by
  rw [clfCurve_eq, List.getLast?_map]
  have hne : thresholds s ≠ [] := by
    intro h
    obtain ⟨x, hx⟩ := List.exists_mem_of_ne_nil _ hp
    have := mem_thresholds.2 hx
    rw [h] at this
    cases this
  rw [List.getLast?_eq_some_getLast hne]
  have hmin : ∀ x ∈ s, (thresholds s).getLast hne ≤ x := by
    intro x hx
    have hx' := mem_thresholds.2 hx
    have hs := thresholds_sorted s
    rw [← List.dropLast_append_getLast hne] at hs hx'
    rcases List.mem_append.1 hx' with h | h
    · exact ((List.pairwise_append.1 hs).2.2 x h _ (List.mem_singleton_self _)).le
    · rw [List.mem_singleton.1 h]
  simp only [Option.map_some, Option.some.injEq, Prod.mk.injEq]
  constructor
  · rw [List.countP_eq_length]
    intro x hx
    simpa using hmin x (mem_negatives hx)
  · rw [List.countP_eq_length]
    intro x hx
    simpa using hmin x (mem_positives hx)

/-- **C34, C74**: if there is a positive and a negative case, the curve begins at (0, 0), ends at (1, 1) and both
rates are nondecreasing.  Every other point gives the rates at which the negative and the positive cases have at
least a certain score.  The area is the probability that a random positive case has a higher score than a random
negative one, counting ties as one half; in particular it is between 0 and 1. -/
theorem rocCurve_correct {y : List ℕ} {s : List K} (hl : y.length = s.length) (hp : positives y s ≠ [])
    (hn : negatives y s ≠ []) :
    ∃ pts : List (K × K), rocCurve y s = .ok (pts.map fun p => (some p.1, some p.2)) ∧
      pts.head? = some (0, 0) ∧ pts.getLast? = some (1, 1) ∧
      pts.Pairwise (fun p q => p.1 ≤ q.1 ∧ p.2 ≤ q.2) ∧
      (∀ p ∈ pts, p = (0, 0) ∨ ∃ t ∈ s,
        p = (((negatives y s).countP (t ≤ ·) : K) / (negatives y s).length,
             ((positives y s).countP (t ≤ ·) : K) / (positives y s).length)) ∧
      auc (pts.map fun p => (some p.1, some p.2)) = .ok (some (rankProbability (positives y s) (negatives y s))) ∧
      0 ≤ rankProbability (positives y s) (negatives y s) ∧
      rankProbability (positives y s) (negatives y s) ≤ 1 := by
  have hy : y ≠ [] := by
    rintro rfl
    exact hp rfl
  have hs : s ≠ [] := by
    rintro rfl
    exact hy (List.length_eq_zero_iff.1 hl)
  have hlast := clfCurve_last (y := y) hs
  have hP : (positives y s).length ≠ 0 := fun h => hp (List.length_eq_zero_iff.1 h)
  have hN : (negatives y s).length ≠ 0 := fun h => hn (List.length_eq_zero_iff.1 h)
  have hPK : ((positives y s).length : K) ≠ 0 := Nat.cast_ne_zero.2 hP
  have hNK : ((negatives y s).length : K) ≠ 0 := Nat.cast_ne_zero.2 hN
  have hl2 : ((0, 0) :: dropIntermediate (clfCurve y s)).getLast? =
      some ((negatives y s).length, (positives y s).length) := by
    rw [List.getLast?_cons, dropIntermediate_getLast, hlast]
    rfl
  have hmono : ((0, 0) :: dropIntermediate (clfCurve y s)).Pairwise fun p q => p.1 ≤ q.1 ∧ p.2 ≤ q.2 := by
    rw [List.pairwise_cons]
    refine ⟨fun q _ => ⟨Nat.zero_le _, Nat.zero_le _⟩, List.Pairwise.sublist (dropIntermediate_sublist _) ?_⟩
    rw [clfCurve_eq, List.pairwise_map]
    refine (thresholds_sorted s).imp fun {a b} h => ⟨?_, ?_⟩ <;>
      exact List.countP_mono_left fun x _ hx => by simpa using le_trans h.le (by simpa using hx)
  have hpw : (((0, 0) :: dropIntermediate (clfCurve y s)).map fun p =>
      ((p.1 : K) / (negatives y s).length, (p.2 : K) / (positives y s).length)).Pairwise
        (fun p q => p.1 ≤ q.1 ∧ p.2 ≤ q.2) := by
    rw [List.pairwise_map]
    refine hmono.imp fun {p q} h => ⟨?_, ?_⟩
    · exact div_le_div_of_nonneg_right (Nat.cast_le.2 h.1) (Nat.cast_nonneg _)
    · exact div_le_div_of_nonneg_right (Nat.cast_le.2 h.2) (Nat.cast_nonneg _)
  refine ⟨((0, 0) :: dropIntermediate (clfCurve y s)).map fun p =>
    ((p.1 : K) / (negatives y s).length, (p.2 : K) / (positives y s).length), ?_, ?_, ?_, hpw, ?_, ?_,
    rankProbability_bounds _ _⟩
  · unfold rocCurve
    rw [if_neg (by simp [hl, hy])]
    simp only [List.map_map]
    rw [List.getLastD_eq_getLast?, hl2]
    simp only [Option.getD_some]
    congr 1
    refine List.map_congr_left fun p _ => ?_
    simp [rate, hP, hN]
  · simp
  · rw [List.getLast?_map, hl2]
    simp [div_self hPK, div_self hNK]
  · intro p hp
    obtain ⟨q, hq, rfl⟩ := List.mem_map.1 hp
    rcases List.mem_cons.1 hq with rfl | hq
    · left; simp
    · right
      have := (dropIntermediate_sublist _).subset hq
      rw [clfCurve_eq] at this
      obtain ⟨t, ht, rfl⟩ := List.mem_map.1 this
      exact ⟨t, mem_thresholds.1 ht, rfl⟩
  · unfold auc
    rw [if_neg, mapM_some_pairs]
    · simp only
      rw [if_pos, trapz_scale, area_counts]
      · unfold rankProbability
        rw [mul_comm]
      · exact (hpw.imp fun h => h.1).isChain
    · have h1 : (dropIntermediate (clfCurve y s)).length ≠ 0 := by
        intro h
        rw [List.length_eq_zero_iff] at h
        have := dropIntermediate_getLast (clfCurve y s)
        rw [h, hlast] at this
        cases this
      simp only [List.length_map, List.length_cons]
      omega

/-- If all cases are positive, or none is, the area is not a number. -/
theorem auc_nan {y : List ℕ} {s : List K} (hl : y.length = s.length) (hy : y ≠ [])
    (h : positives y s = [] ∨ negatives y s = []) :
    ∃ pts, rocCurve y s = .ok pts ∧ auc pts = .ok none := by
  have hs : s ≠ [] := by
    rintro rfl
    exact hy (List.length_eq_zero_iff.1 hl)
  have hlast := clfCurve_last (y := y) hs
  have hl2 : ((0, 0) :: dropIntermediate (clfCurve y s)).getLast? =
      some ((negatives y s).length, (positives y s).length) := by
    rw [List.getLast?_cons, dropIntermediate_getLast, hlast]
    rfl
  have h1 : (dropIntermediate (clfCurve y s)).length ≠ 0 := by
    intro h
    rw [List.length_eq_zero_iff] at h
    have := dropIntermediate_getLast (clfCurve y s)
    rw [h, hlast] at this
    cases this
  refine ⟨((0, 0) :: dropIntermediate (clfCurve y s)).map fun p =>
    (rate p.1 (negatives y s).length, rate p.2 (positives y s).length), ?_, ?_⟩
  · unfold rocCurve
    rw [if_neg (by simp [hl, hy])]
    simp only
    rw [List.getLastD_eq_getLast?, hl2]
    rfl
  · unfold auc
    rw [if_neg (by simp only [List.length_map, List.length_cons]; omega)]
    have : numbers (((0, 0) :: dropIntermediate (clfCurve y s)).map fun p =>
        ((rate p.1 (negatives y s).length : Option K), (rate p.2 (positives y s).length : Option K))) = none := by
      unfold numbers
      rw [List.map_cons, List.mapM_cons]
      rcases h with h | h
      · cases (rate 0 (negatives y s).length : Option K) <;> simp [h, rate]
      · simp [h, rate]
    rw [this]

theorem numbers_append (a b : List (Option K × Option K)) :
    numbers (a ++ b) = (numbers a).bind fun x => (numbers b).map fun y => x ++ y := by
  unfold numbers
  rw [List.mapM_append]
  cases List.mapM (fun p : Option K × Option K => p.1.bind fun x => p.2.map fun y => (x, y)) a <;>
    cases List.mapM (fun p : Option K × Option K => p.1.bind fun x => p.2.map fun y => (x, y)) b <;> rfl

theorem numbers_reverse (pts : List (Option K × Option K)) : numbers pts.reverse = (numbers pts).map List.reverse := by
  induction pts with
  | nil => rfl
  | cons p pts ih =>
    rw [List.reverse_cons, numbers_append, ih]
    change _ = (numbers ([p] ++ pts)).map List.reverse
    rw [numbers_append]
    have h1 : numbers [p] = (p.1.bind fun x => p.2.map fun y => (x, y)).map fun q => [q] := by
      unfold numbers
      rw [List.mapM_cons, List.mapM_nil]
      cases (p.1.bind fun x => p.2.map fun y => (x, y)) <;> rfl
    rw [h1]
    cases (p.1.bind fun x => p.2.map fun y => (x, y)) <;> cases numbers pts <;> simp

theorem trapz_snoc (l : List (K × K)) (p q : K × K) : trapz (l ++ [p, q]) = trapz (l ++ [p]) + seg p q := by
  induction l with
  | nil => simp [trapz, seg]
  | cons a l ih =>
    cases l with
    | nil => simp [trapz, seg]
    | cons b l =>
      simp only [List.cons_append] at ih ⊢
      rw [trapz_cons₂, trapz_cons₂, ih, add_assoc]

theorem trapz_reverse (l : List (K × K)) : trapz l.reverse = -trapz l := by
  induction l with
  | nil => simp [trapz]
  | cons a l ih =>
    cases l with
    | nil => simp [trapz]
    | cons b l =>
      rw [trapz_cons₂, List.reverse_cons, List.reverse_cons, List.append_assoc]
      change trapz (l.reverse ++ [b, a]) = _
      rw [trapz_snoc, ← List.reverse_cons, ih]
      simp only [seg]
      ring

theorem trapz_constant {l : List (K × K)} (h1 : l.IsChain fun p q => p.1 ≤ q.1) (h2 : l.IsChain fun p q => q.1 ≤ p.1) : trapz l = 0 := by
  induction l with
  | nil => rfl
  | cons a l ih =>
    cases l with
    | nil => rfl
    | cons b l =>
      rw [List.isChain_cons_cons] at h1 h2
      rw [trapz_cons₂, ih h1.2 h2.2, seg, le_antisymm h1.1 h2.1]
      simp

/-- **C34**: the area does not depend on the direction in which the points of the curve are listed. -/
theorem auc_reverse (pts : List (Option K × Option K)) : auc pts.reverse = auc pts := by
  unfold auc
  rw [List.length_reverse, numbers_reverse]
  by_cases hl : pts.length < 2
  · rw [if_pos hl, if_pos hl]
  rw [if_neg hl, if_neg hl]
  cases numbers pts with
  | none => rfl
  | some l =>
    simp only [Option.map_some]
    have e1 : l.reverse.IsChain (fun p q => p.1 ≤ q.1) ↔ l.IsChain fun p q => q.1 ≤ p.1 := List.isChain_reverse
    have e2 : l.reverse.IsChain (fun p q => q.1 ≤ p.1) ↔ l.IsChain fun p q => p.1 ≤ q.1 := List.isChain_reverse
    by_cases h1 : l.IsChain fun p q => p.1 ≤ q.1
    · by_cases h2 : l.IsChain fun p q => q.1 ≤ p.1
      · rw [if_pos (e1.2 h2), if_pos h1, trapz_reverse, trapz_constant h1 h2, neg_zero]
      · rw [if_neg (fun h => h2 (e1.1 h)), if_pos (e2.2 h1), if_pos h1, trapz_reverse, neg_neg]
    · by_cases h2 : l.IsChain fun p q => q.1 ≤ p.1
      · rw [if_pos (e1.2 h2), if_neg h1, if_pos h2, trapz_reverse]
      · rw [if_neg (fun h => h2 (e1.1 h)), if_neg (fun h => h1 (e2.1 h)), if_neg h1, if_neg h2]

end

end Verif.Evaluation
