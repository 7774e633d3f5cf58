import Verif.Discretiser.Props
import Mathlib.Algebra.Order.Floor.Ring
import Mathlib.Tactic.FieldSimp

/-!
# C144: quantile buckets are balanced
-/

namespace Verif.Discretiser

section
set_option linter.unusedSectionVars false
variable {K : Type} [Field K] [LinearOrder K] [IsStrictOrderedRing K]

/-- The fractions of the data that the user wants below each split point. -/
def Fractions (d : Disc K) (ws : List K) : Prop :=
  (d.method = "quantile" ∧ ∃ b : ℕ, 1 ≤ b ∧ d.numBuckets = some (b : ℤ) ∧ ws.length = b - 1 ∧
    ∀ (i : ℕ) (w : K), ws[i]? = some w → w = (i + 1 : ℕ) / b) ∨
  (d.method = "outlier" ∧ ∃ o, d.outlier = some o ∧ ws = [o, 1 - o]) ∨
  (d.method = "percentiles" ∧ d.percentiles = some ws)

/-- The fraction of the data that the user wants in bucket `k`: the difference of the fractions below its two ends. -/
def share (ws : List K) (k : ℕ) : K := ws.getD k 1 - if k = 0 then 0 else ws.getD (k - 1) 1

variable [FloorSemiring K]

theorem fractions_fit {d : Disc K} (hv : Valid d) {data : List K} (hd : data ≠ []) {ws : List K} (hw : Fractions d ws) :
    fitPoints d data = .ok (ws.map (qv (data.insertionSort (· ≤ ·)))) ∧ ws.Pairwise (· ≤ ·) ∧ ∀ w ∈ ws, 0 ≤ w ∧ w ≤ 1 := by
  obtain ⟨q1, q2, q3⟩ := fitPoints_quantiles hv hd
  rcases hw with ⟨hm, b, hb, hnb, hl, hws⟩ | ⟨hm, o, ho, rfl⟩ | ⟨hm, hp⟩
  · have hb0 : (b : ℤ) ≠ 0 := by omega
    have e : ws = (pyRange ((b : ℤ) - 1)).map fun n : ℕ => 1 / ((b : ℤ) : K) * ((n : K) + 1) := by
      apply List.ext_getElem
      · rw [List.length_map, pyRange_length, hl]
        omega
      · intro i h1 h2
        rw [hws i ws[i] (List.getElem?_eq_getElem h1), List.getElem_map]
        simp only [pyRange, List.getElem_range]
        push_cast
        ring
    rw [e]
    exact ⟨q1 b hm hnb hb0, asked_quantile_sorted _, asked_quantile_range hb0⟩
  · have := hv.outlier o ho
    refine ⟨q2 o hm ho, ?_, ?_⟩
    · simp only [List.pairwise_cons, List.mem_singleton, List.not_mem_nil, IsEmpty.forall_iff, implies_true, List.Pairwise.nil, and_true]
      rintro _ rfl
      linarith [this.2]
    · intro q hq
      simp only [List.mem_cons, List.not_mem_nil, or_false] at hq
      rcases hq with rfl | rfl
      · exact ⟨this.1, by linarith [this.2]⟩
      · exact ⟨by linarith [this.2], by linarith [this.1]⟩
  · exact ⟨q3 ws hm hp, (hv.percentiles ws hp).1, (hv.percentiles ws hp).2⟩

theorem sorted_below {x : List K} (hs : x.Pairwise (· ≤ ·)) {i : ℕ} (hi : i < x.length) {v : K} (hv : v ≤ x[i]) :
    x.countP (· < v) ≤ i := by
  have e : x.countP (· < v) = (x.take i).countP (· < v) + (x.drop i).countP (· < v) := by
    rw [← List.countP_append, List.take_append_drop]
  have h0 : (x.drop i).countP (· < v) = 0 := by
    rw [List.countP_eq_zero]
    intro y hy
    obtain ⟨j, hj, rfl⟩ := List.getElem_of_mem hy
    rw [List.getElem_drop]
    have hle : x[i] ≤ x[i + j]'(by rw [List.length_drop] at hj; omega) := by
      rcases Nat.eq_zero_or_pos j with rfl | hj0
      · exact le_refl _
      · exact List.pairwise_iff_getElem.1 hs i (i + j) hi _ (by omega)
    simp only [decide_eq_true_eq, not_lt]
    exact hv.trans hle
  rw [e, h0, add_zero]
  exact List.countP_le_length.trans (by rw [List.length_take]; omega)

theorem sorted_upto {x : List K} (hs : x.Pairwise (· ≤ ·)) {i : ℕ} (hi : i < x.length) {v : K} (hv : x[i] ≤ v) :
    i + 1 ≤ x.countP (· ≤ v) := by
  have e : x.countP (· ≤ v) = (x.take (i + 1)).countP (· ≤ v) + (x.drop (i + 1)).countP (· ≤ v) := by
    rw [← List.countP_append, List.take_append_drop]
  have h0 : (x.take (i + 1)).countP (· ≤ v) = i + 1 := by
    have hl : (x.take (i + 1)).length = i + 1 := by rw [List.length_take]; omega
    refine Eq.trans (List.countP_eq_length.2 fun y hy => ?_) hl
    obtain ⟨j, hj, rfl⟩ := List.getElem_of_mem hy
    rw [List.getElem_take]
    rw [hl] at hj
    have hle : x[j] ≤ x[i] := by
      rcases Nat.lt_or_eq_of_le (Nat.lt_succ_iff.1 hj) with h | h
      · exact List.pairwise_iff_getElem.1 hs j i _ hi h
      · subst h; exact le_refl _
    simp only [decide_eq_true_eq]
    exact hle.trans hv
  omega

/-- Fewer than `w (N - 1) + 1` data lie below the `w`-quantile of `N` data, and more than `w (N - 1)` lie below it or at it. -/
theorem quantile_counts {data : List K} (hd : data ≠ []) {w : K} (h0 : 0 ≤ w) (h1 : w ≤ 1) :
    (data.countP (· < qv (data.insertionSort (· ≤ ·)) w) : K) < w * ((data.length - 1 : ℕ) : K) + 1 ∧
      w * ((data.length - 1 : ℕ) : K) < (data.countP (· ≤ qv (data.insertionSort (· ≤ ·)) w) : K) := by
  have hp := List.perm_insertionSort (· ≤ ·) data
  have hs := List.pairwise_insertionSort (· ≤ ·) data
  have hne := sort_ne_nil hd
  rw [← hp.countP_eq, ← hp.countP_eq, ← hp.length_eq]
  generalize data.insertionSort (· ≤ ·) = x at *
  obtain ⟨ha, hb, hc, hl⟩ := pos_facts hne h0 h1
  obtain ⟨h2, h3⟩ := qv_between hne hs h0 h1
  have hh : 0 ≤ w * ((x.length - 1 : ℕ) : K) := mul_nonneg h0 (Nat.cast_nonneg _)
  constructor
  · by_cases hint : w * ((x.length - 1 : ℕ) : K) = (⌊w * ((x.length - 1 : ℕ) : K)⌋₊ : K)
    · have hle : qv x w ≤ x[⌊w * ((x.length - 1 : ℕ) : K)⌋₊] := by
        unfold qv
        rw [sub_eq_zero.2 hint, mul_zero, add_zero, List.getD_eq_getElem _ _ (by omega)]
      have := sorted_below hs (by omega) hle
      have : (x.countP (· < qv x w) : K) ≤ (⌊w * ((x.length - 1 : ℕ) : K)⌋₊ : K) := by exact_mod_cast this
      linarith [Nat.floor_le hh]
    · have hlt : (⌊w * ((x.length - 1 : ℕ) : K)⌋₊ : K) < w * ((x.length - 1 : ℕ) : K) := lt_of_le_of_ne (Nat.floor_le hh) (Ne.symm hint)
      have hle : qv x w ≤ x[min (⌊w * ((x.length - 1 : ℕ) : K)⌋₊ + 1) (x.length - 1)] := by
        rw [← List.getD_eq_getElem (d := 0)]
        exact h3
      have := sorted_below hs (by omega) hle
      have : x.countP (· < qv x w) ≤ ⌊w * ((x.length - 1 : ℕ) : K)⌋₊ + 1 := this.trans (min_le_left _ _)
      have : (x.countP (· < qv x w) : K) ≤ (⌊w * ((x.length - 1 : ℕ) : K)⌋₊ : K) + 1 := by exact_mod_cast this
      linarith
  · have hle : x[⌊w * ((x.length - 1 : ℕ) : K)⌋₊]'(by omega) ≤ qv x w := by
      rw [← List.getD_eq_getElem (d := 0)]
      exact h2
    have := sorted_upto hs (by omega) hle
    have : (⌊w * ((x.length - 1 : ℕ) : K)⌋₊ : K) + 1 ≤ (x.countP (· ≤ qv x w) : K) := by exact_mod_cast this
    linarith [Nat.lt_floor_add_one (w * ((x.length - 1 : ℕ) : K))]

/-- The bucket of a value in terms of the two split points around it. -/
theorem inBucket_iff {points : List K} (hs : points.Pairwise (· ≤ ·)) {x : K} {k : ℕ} :
    InBucket points x k ↔ k ≤ points.length ∧ (∀ p, points[k]? = some p → x < p) ∧ ∀ j p, k = j + 1 → points[j]? = some p → ¬ x < p := by
  constructor
  · rintro ⟨h1, h2, h3⟩
    exact ⟨h1, fun p hp => h3 k p hp le_rfl, fun j p hj hp => not_lt.2 (h2 j p hp (by omega))⟩
  · rintro ⟨h1, h2, h3⟩
    refine ⟨h1, fun i p hp hi => ?_, fun i p hp hi => ?_⟩
    · obtain ⟨hil, rfl⟩ := List.getElem?_eq_some_iff.1 hp
      have h4 := not_lt.1 (h3 (k - 1) (points[k - 1]'(by omega)) (by omega) (List.getElem?_eq_getElem _))
      refine le_trans ?_ h4
      rcases Nat.lt_or_eq_of_le (show i ≤ k - 1 by omega) with h | h
      · exact List.pairwise_iff_getElem.1 hs i (k - 1) _ _ h
      · subst h; exact le_refl _
    · obtain ⟨hil, rfl⟩ := List.getElem?_eq_some_iff.1 hp
      have h4 := h2 (points[k]'(by omega)) (List.getElem?_eq_getElem _)
      refine lt_of_lt_of_le h4 ?_
      rcases Nat.lt_or_eq_of_le hi with h | h
      · exact List.pairwise_iff_getElem.1 hs k i _ _ h
      · subst h; exact le_refl _

/-- The buckets that `transform` reports for data. -/
theorem transform_iff {d : Disc K} (hr : Reach d) {points : List K} (hp : d.numeric = some points) (data : List K) :
    ∃ out, transform d data = .ok out ∧ ∀ k, out.count k = data.countP fun x => decide (points.countP (· ≤ x) = k) := by
  obtain ⟨out, h1, h2, -⟩ := transform_correct hr hp data
  refine ⟨out, h1, fun k => ?_⟩
  have e : out = data.map fun x => points.countP (· ≤ x) := by
    clear h1
    induction h2 with
    | nil => rfl
    | cons h _ ih => rw [List.map_cons, ← ih, ← h.2.1]
  rw [e, List.count_eq_countP, List.countP_map]
  rfl

/-- The value lies below split point `k`, if there is one. -/
def under (points : List K) (k : ℕ) (x : K) : Bool := (points[k]?).all fun p => decide (x < p)

/-- The value lies below the lower end of bucket `k`. -/
def before (points : List K) (k : ℕ) (x : K) : Bool := decide (k ≠ 0) && under points (k - 1) x

theorem bucket_iff {points : List K} (hs : points.Pairwise (· ≤ ·)) {k : ℕ} (hk : k ≤ points.length) (x : K) :
    decide (points.countP (· ≤ x) = k) = (under points k x && !before points k x) := by
  have h1 : points.countP (· ≤ x) = k ↔ InBucket points x k := by
    obtain ⟨out, -, g2⟩ := digitize_spec hs [x]
    obtain _ | ⟨g3, -⟩ := g2
    constructor
    · rintro rfl
      rw [← inBucket_count g3]
      exact g3
    · exact fun h => (inBucket_count h).symm
  rw [Bool.eq_iff_iff, decide_eq_true_iff, h1, inBucket_iff hs, Bool.and_eq_true, Bool.not_eq_true', under, Option.all_eq_true]
  simp only [hk, true_and, decide_eq_true_eq]
  refine and_congr_right fun _ => ?_
  cases k with
  | zero => simp [before]
  | succ j =>
    rw [before, Nat.add_sub_cancel, under, List.getElem?_eq_getElem hk]
    simp only [Option.all_some, ne_eq, Nat.add_eq_zero_iff, one_ne_zero, and_false, not_false_eq_true, decide_true, Bool.true_and, decide_eq_false_iff_not]
    constructor
    · intro h
      exact h j _ rfl (List.getElem?_eq_getElem hk)
    · intro h j' p hj hp
      cases Nat.succ.inj hj
      rw [List.getElem?_eq_getElem hk] at hp
      cases hp
      exact h

theorem before_under {points : List K} (hs : points.Pairwise (· ≤ ·)) (k : ℕ) (x : K) (h : before points k x) : under points k x := by
  rw [before, Bool.and_eq_true] at h
  obtain ⟨h0, h1⟩ := h
  have h0 : k ≠ 0 := by simpa using h0
  rw [under, Option.all_eq_true]
  intro p hp
  obtain ⟨hk, rfl⟩ := List.getElem?_eq_some_iff.1 hp
  rw [under, List.getElem?_eq_getElem (by omega), Option.all_some, decide_eq_true_iff] at h1
  rw [decide_eq_true_iff]
  exact lt_of_lt_of_le h1 (List.pairwise_iff_getElem.1 hs (k - 1) k _ _ (by omega))

theorem countP_sub {data : List K} {A B : K → Bool} (h : ∀ x ∈ data, B x → A x) :
    data.countP (fun x => A x && !B x) + data.countP B = data.countP A := by
  induction data with
  | nil => rfl
  | cons a l ih =>
    have ih := ih fun x hx => h x (List.mem_cons_of_mem _ hx)
    have ha := h a List.mem_cons_self
    simp only [List.countP_cons]
    rcases hA : A a <;> rcases hB : B a <;> simp_all <;> omega

theorem sorted_under {x : List K} (hs : x.Pairwise (· ≤ ·)) {i : ℕ} (hi : i < x.length) {v : K} (hv : x[i] < v) :
    i + 1 ≤ x.countP (· < v) := by
  have h := sorted_upto hs hi (le_refl x[i])
  refine h.trans (List.countP_mono_left fun y _ hy => ?_)
  have hy : y ≤ x[i] := by simpa using hy
  simpa using lt_of_le_of_lt hy hv

/-- If the data are distinct, at least `w (N - 1)` of them lie below the `w`-quantile. -/
theorem quantile_count_ge {data : List K} (hd : data ≠ []) (hnd : data.Nodup) {w : K} (h0 : 0 ≤ w) (h1 : w ≤ 1) :
    w * ((data.length - 1 : ℕ) : K) ≤ (data.countP (· < qv (data.insertionSort (· ≤ ·)) w) : K) := by
  have hp := List.perm_insertionSort (· ≤ ·) data
  have hs := List.pairwise_insertionSort (· ≤ ·) data
  have hne := sort_ne_nil hd
  have hnd := hp.nodup_iff.2 hnd
  rw [← hp.countP_eq, ← hp.length_eq]
  generalize data.insertionSort (· ≤ ·) = x at *
  obtain ⟨ha, hb, hc, hl⟩ := pos_facts hne h0 h1
  have hh : 0 ≤ w * ((x.length - 1 : ℕ) : K) := mul_nonneg h0 (Nat.cast_nonneg _)
  have hstrict : ∀ (i j : ℕ) (hi : i < x.length) (hj : j < x.length), i < j → x[i] < x[j] := by
    intro i j hi hj hij
    refine lt_of_le_of_ne (List.pairwise_iff_getElem.1 hs i j hi hj hij) fun he => ?_
    exact absurd ((List.Nodup.getElem_inj_iff hnd).1 he) (by omega)
  by_cases hint : w * ((x.length - 1 : ℕ) : K) = (⌊w * ((x.length - 1 : ℕ) : K)⌋₊ : K)
  · have hq : qv x w = x[⌊w * ((x.length - 1 : ℕ) : K)⌋₊] := by
      unfold qv
      rw [sub_eq_zero.2 hint, mul_zero, add_zero, List.getD_eq_getElem _ _ (by omega)]
    have hle : ⌊w * ((x.length - 1 : ℕ) : K)⌋₊ ≤ x.countP (· < qv x w) := by
      rcases Nat.eq_zero_or_pos ⌊w * ((x.length - 1 : ℕ) : K)⌋₊ with hz | hz
      · omega
      · have hlt : x[⌊w * ((x.length - 1 : ℕ) : K)⌋₊ - 1]'(by omega) < qv x w := by
          rw [hq]
          exact hstrict _ _ _ _ (by omega)
        have := sorted_under hs (by omega) hlt
        omega
    rw [hint]
    exact_mod_cast hle
  · have hlt : (⌊w * ((x.length - 1 : ℕ) : K)⌋₊ : K) < w * ((x.length - 1 : ℕ) : K) := lt_of_le_of_ne (Nat.floor_le hh) (Ne.symm hint)
    have hl1 : ⌊w * ((x.length - 1 : ℕ) : K)⌋₊ + 1 ≤ x.length - 1 := by
      have h2 : w * ((x.length - 1 : ℕ) : K) ≤ ((x.length - 1 : ℕ) : K) := by
        have := mul_le_mul_of_nonneg_right h1 (Nat.cast_nonneg (α := K) (x.length - 1))
        rwa [one_mul] at this
      have h3 : (⌊w * ((x.length - 1 : ℕ) : K)⌋₊ : K) < ((x.length - 1 : ℕ) : K) := lt_of_lt_of_le hlt h2
      exact_mod_cast h3
    have hgt : x[⌊w * ((x.length - 1 : ℕ) : K)⌋₊]'(by omega) < qv x w := by
      have h2 := hstrict ⌊w * ((x.length - 1 : ℕ) : K)⌋₊ (⌊w * ((x.length - 1 : ℕ) : K)⌋₊ + 1) (by omega) (by omega) (by omega)
      unfold qv
      rw [min_eq_left hl1, List.getD_eq_getElem _ _ (by omega), List.getD_eq_getElem _ _ (by omega)]
      have := mul_pos (sub_pos.2 h2) (sub_pos.2 hlt)
      linarith
    have := sorted_under hs (by omega) hgt
    have : (⌊w * ((x.length - 1 : ℕ) : K)⌋₊ : K) + 1 ≤ (x.countP (· < qv x w) : K) := by exact_mod_cast this
    linarith [Nat.lt_floor_add_one (w * ((x.length - 1 : ℕ) : K))]

/-- **C144**, for the data of the fit: if the data are distinct, the number of them in each bucket differs by less than 2 from the wanted fraction
of the data. -/
theorem fit_balanced {d : Disc K} (hr : Reach d) {data : List K} (hd : data ≠ []) (hnd : data.Nodup) {ws : List K} (hw : Fractions d ws) :
    ∃ d' out, fitTransform d data = (d', .ok out) ∧ ∀ k ≤ ws.length, |(out.count k : K) - data.length * share ws k| < 2 := by
  obtain ⟨h1, h2, h3⟩ := fractions_fit hr.valid hd hw
  let v : K → K := qv (data.insertionSort (· ≤ ·))
  let d' : Disc K := { d with numeric := some (ws.map v) }
  have hfit : fit d data = (d', .ok ()) := by rw [fit, h1]
  have hr' : Reach d' := hr.fit hfit
  obtain ⟨out, h4, h5⟩ := transform_iff hr' (points := ws.map v) rfl data
  refine ⟨d', out, by rw [fitTransform, hfit]; simp only [h4], fun k hk => ?_⟩
  have hs : (ws.map v).Pairwise (· ≤ ·) := qv_sorted (sort_ne_nil hd) (List.pairwise_insertionSort _ _) h2 h3
  have hN : ((data.length - 1 : ℕ) : K) = data.length - 1 := by
    rw [Nat.cast_sub (List.length_pos_iff.2 hd), Nat.cast_one]
  have hc : ∀ w ∈ ws, w * ((data.length : K) - 1) ≤ (data.countP (· < v w) : K) ∧ (data.countP (· < v w) : K) < w * ((data.length : K) - 1) + 1 := by
    intro w hw
    rw [← hN]
    exact ⟨quantile_count_ge hd hnd (h3 w hw).1 (h3 w hw).2, (quantile_counts hd (h3 w hw).1 (h3 w hw).2).1⟩
  have hsplit : (out.count k : K) = data.countP (under (ws.map v) k) - data.countP (before (ws.map v) k) := by
    have e := countP_sub (data := data) (A := under (ws.map v) k) (B := before (ws.map v) k) fun x _ => before_under hs k x
    have e2 : out.count k = data.countP fun x => under (ws.map v) k x && !before (ws.map v) k x := by
      rw [h5]
      exact List.countP_congr fun x _ => by rw [bucket_iff hs (by rw [List.length_map]; exact hk)]
    rw [eq_sub_iff_add_eq, e2]
    exact_mod_cast e
  have hdata1 : (1 : K) ≤ data.length := by exact_mod_cast List.length_pos_iff.2 hd
  have hunder : ∀ j, 0 ≤ ws.getD j 1 ∧ ws.getD j 1 ≤ 1 ∧ -ws.getD j 1 ≤ (data.countP (under (ws.map v) j) : K) - data.length * ws.getD j 1 ∧
      (data.countP (under (ws.map v) j) : K) - data.length * ws.getD j 1 < 1 := by
    intro j
    by_cases hj : j < ws.length
    · have hmem : ws[j] ∈ ws := List.getElem_mem hj
      have e : under (ws.map v) j = fun x => decide (x < v ws[j]) := by
        funext x
        rw [under, List.getElem?_eq_getElem (by rw [List.length_map]; exact hj), List.getElem_map, Option.all_some]
      rw [List.getD_eq_getElem _ _ hj, e]
      obtain ⟨g1, g2⟩ := hc _ hmem
      obtain ⟨g3, g4⟩ := h3 _ hmem
      exact ⟨g3, g4, by linarith, by linarith⟩
    · have e : under (ws.map v) j = fun _ => true := by
        funext x
        rw [under, List.getElem?_eq_none (by rw [List.length_map]; omega), Option.all_none]
      rw [List.getD_eq_default _ _ (by omega), e, List.countP_true]
      refine ⟨zero_le_one, le_refl _, ?_, ?_⟩
      · rw [mul_one, sub_self]; linarith
      · rw [mul_one, sub_self]; exact one_pos
  obtain ⟨a1, a2, a3, a4⟩ := hunder k
  rw [hsplit, share]
  by_cases hk0 : k = 0
  · have e : before (ws.map v) k = fun _ => false := by
      funext x
      simp [before, hk0]
    rw [e, List.countP_false, if_pos hk0, abs_lt, Function.const_apply, Nat.cast_zero]
    constructor <;> linarith
  · have e : before (ws.map v) k = under (ws.map v) (k - 1) := by
      funext x
      simp [before, hk0]
    obtain ⟨b1, b2, b3, b4⟩ := hunder (k - 1)
    rw [e, if_neg hk0, abs_lt]
    constructor <;> linarith

/-- C144 needs distinct data: if all data are equal, they are all in the last bucket. -/
theorem fit_ties {d : Disc K} (hr : Reach d) (c : K) {n : ℕ} (hn : 0 < n) {ws : List K} (hw : Fractions d ws) :
    fitTransform d (List.replicate n c) = ({ d with numeric := some (List.replicate ws.length c) }, .ok (List.replicate n ws.length)) := by
  have hd : List.replicate n c ≠ [] := by rw [ne_eq, List.replicate_eq_nil_iff]; omega
  obtain ⟨h1, h2, h3⟩ := fractions_fit hr.valid hd hw
  have hv : ∀ w ∈ ws, qv ((List.replicate n c).insertionSort (· ≤ ·)) w = c := by
    intro w hw
    have hm : IsMin (List.replicate n c) c := ⟨List.mem_replicate.2 ⟨by omega, rfl⟩, fun x hx => (List.eq_of_mem_replicate hx).ge⟩
    have hM : IsMax (List.replicate n c) c := ⟨List.mem_replicate.2 ⟨by omega, rfl⟩, fun x hx => (List.eq_of_mem_replicate hx).le⟩
    have := qv_range hd (h3 w hw).1 (h3 w hw).2 hm hM
    exact le_antisymm this.2 this.1
  have e : ws.map (qv ((List.replicate n c).insertionSort (· ≤ ·))) = List.replicate ws.length c := by
    rw [List.eq_replicate_iff]
    refine ⟨List.length_map _, fun b hb => ?_⟩
    obtain ⟨w, hw, rfl⟩ := List.mem_map.1 hb
    exact hv w hw
  rw [e] at h1
  have hfit : fit d (List.replicate n c) = ({ d with numeric := some (List.replicate ws.length c) }, .ok ()) := by rw [fit, h1]
  obtain ⟨out, h4, h5, -⟩ := transform_correct (hr.fit hfit) (points := List.replicate ws.length c) rfl (List.replicate n c)
  have e2 : out = List.replicate n ws.length := by
    have hl := h5.length_eq
    rw [List.length_replicate] at hl
    rw [List.eq_replicate_iff]
    refine ⟨hl.symm, fun b hb => ?_⟩
    obtain ⟨i, hi, rfl⟩ := List.getElem_of_mem hb
    have h6 := ((List.forall₂_iff_get.1 h5).2 i (by rw [List.length_replicate]; omega) hi).2.1
    simp only [List.get_eq_getElem, List.getElem_replicate] at h6
    rw [h6, List.countP_eq_length.2 fun y hy => by rw [List.eq_of_mem_replicate hy]; simp, List.length_replicate]
  rw [fitTransform, hfit]
  simp only [h4, e2]

/-- The hypotheses are met by 10 distinct numbers and 4 buckets; the buckets get 3, 2, 2 and 3 of them. -/
example : Reach (⟨"quantile", some 4, none, none, none⟩ : Disc ℚ) ∧ Fractions (⟨"quantile", some 4, none, none, none⟩ : Disc ℚ) [1 / 4, 2 / 4, 3 / 4] ∧
    ([3, 1, 4, 15, 9, 2, 6, 5, 35, 8] : List ℚ).Nodup ∧ (fitTransform (⟨"quantile", some 4, none, none, none⟩ : Disc ℚ) [3, 1, 4, 15, 9, 2, 6, 5, 35, 8]).2 =
      .ok [0, 0, 1, 3, 3, 0, 2, 1, 3, 2] := by
  refine ⟨.create (m := "quantile") (b := some 4) (o := none) (n := none) (p := none) (by decide +kernel), Or.inl ⟨rfl, 4, by norm_num, rfl, rfl, ?_⟩, by decide +kernel, by decide +kernel⟩
  intro i w hw
  match i, hw with
  | 0, hw => cases hw; norm_num
  | 1, hw => cases hw; norm_num
  | 2, hw => cases hw; norm_num

end

end Verif.Discretiser
